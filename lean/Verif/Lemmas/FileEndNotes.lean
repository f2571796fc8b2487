import Verif.Lemmas.FileEndDoc
import Verif.Lemmas.KeepNotes

/-!
# The end of a document with footnotes
-/

namespace Hongdown
open Model Spec

theorem fillWords_ne {w : List Char → Nat} {first cont : Nat} : ∀ (ws : List (List Char)) (b : Bool) (cur : List Char),
    cur ≠ [] → fillWords w first cont b cur ws ≠ []
  | [], b, cur, h => by rw [fillWords, if_neg h]; simp
  | x :: ws, b, cur, h => by
    rw [fillWords, if_neg h]
    by_cases hle : w cur + 1 + w x ≤ (if b then first else cont)
    · rw [if_pos hle]
      exact fillWords_ne ws b _ (by simp)
    · rw [if_neg hle]
      simp

theorem footnoteLines_end {pfx indent : List Char} {ls : List (List Char)} (hp : pfx.getLast? = some ' ')
    (hi : indent.getLast? = some ' ') (hl : ∀ l ∈ ls, '\n' ∉ l) (hne : ls ≠ []) : OneBreak (footnoteLines pfx indent ls) := by
  obtain ⟨xs, x, rfl⟩ : ∃ xs x, ls = xs ++ [x] := ⟨_, _, (List.dropLast_concat_getLast hne).symm⟩
  rw [footnoteLines, List.mapIdx_append, List.flatten_append]
  refine OneBreak.left ?_ _
  simp only [List.mapIdx_cons, List.mapIdx_nil, List.flatten_cons, List.flatten_nil, List.append_nil]
  have hx := hl x (by simp)
  cases h : x.getLast? with
  | some c =>
    refine oneBreak_of (getLast_append_some h) ?_
    rintro rfl
    exact hx (List.mem_of_getLast? h)
  | none =>
    have : x = [] := by simpa using h
    rw [this, List.append_nil]
    refine oneBreak_of (c := ' ') ?_ (by decide)
    split
    · exact hp
    · exact hi

/-- A footnote without blocks ends with exactly one line break. -/
theorem footnoteText_end (cx : Cx) {f : Footnote} (h : f.hasBlocks = false) : OneBreak (footnoteText cx f) := by
  have hp : (footnotePrefix f.name).getLast? = some ' ' := by rw [footnotePrefix]; exact getLast_append_some rfl
  rw [footnoteText]
  simp only [h, Bool.false_eq_true, if_false]
  split
  · exact oneBreak_of hp (by decide)
  · next hne =>
    refine footnoteLines_end hp ?_ ?_ ?_
    · have hpos : byteLen (footnotePrefix f.name) ≠ 0 := by
        intro h0
        rw [footnotePrefix, List.append_assoc, byteLen_append] at h0
        have : byteLen ['[', '^'] = 2 := by decide
        omega
      obtain ⟨k, hk⟩ := Nat.exists_eq_succ_of_ne_zero hpos
      rw [hk, spaces, List.replicate_succ']
      exact getLast_append_some rfl
    · exact fillWords_no_newline _ _ _ _ _ _ (by simp) fun x hx => wordsGo_no_newline _ [] (by simp) x hx
    · cases hw : splitWs (softToSpace f.content) with
      | nil => exact absurd hw hne
      | cons x ws =>
        rw [fillWords, if_pos rfl]
        refine fillWords_ne _ _ _ ?_
        rintro rfl
        exact (show [] ∉ splitWs (softToSpace f.content) from wordsGo_no_nil _ []) (by rw [hw]; simp)

/-- The state of the loop over the blocks of a document with footnotes. -/
structure NoteInv (cx : Cx) (P : Ref → Prop) (st : St) : Prop where
  collecting : st.footnotes.collecting = false
  type : st.listType = none
  refs : ∀ e ∈ st.pendingReferences, P e.2
  fnRefs : ∀ e ∈ st.footnotes.pendingReferences, P e.2.1
  notes : ∀ e ∈ st.footnotes.pending, OneBreak (footnoteText cx e.2)

/-- A block of such a document. -/
structure NoteKid (cx : Cx) (P : Ref → Prop) (k : Kid) : Prop where
  ok : KidOk cx k
  block : isItemLike k.node = false
  deaf : k.node.isFootnoteDefinition = false → Deaf k.act
  refs : ∀ r ∈ (uses cx k.node).may, P r
  file : k.node.directive ≠ some .disableFile

variable {cx : Cx} {P : Ref → Prop}

theorem NoteInv.act {k : Kid} (hk : NoteKid cx P k) (hf : k.node.isFootnoteDefinition = false) {st : St} (h : NoteInv cx P st) :
    NoteInv cx P (k.act st) := by
  have ok := hk.ok.act hk.block st
  refine ⟨ok.core.collecting h.collecting, (ctx_eq ok.ctx).2.1.trans h.type,
    MapGrow.values (P := P) ok.core.pending h.refs hk.refs,
    MapGrow.values (P := fun v : Ref × Nat => P v.1) ok.core.fnRefs h.fnRefs fun v hv => hk.refs _ hv, ?_⟩
  have := congrArg FootnoteSet.pending ((hk.deaf hf st st rfl).2 h.collecting)
  intro e he
  exact h.notes e (this ▸ he)

theorem NoteInv.push {st : St} (h : NoteInv cx P st) (t : List Char) : NoteInv cx P (st.push t) :=
  ⟨h.collecting, h.type, h.refs, h.fnRefs, h.notes⟩

theorem NoteInv.flush {st : St} (h : NoteInv cx P st) (b : Option Nat) : NoteInv cx P (flushAll cx b st) := by
  rw [flushAll, flushFootnoteRefs_eq, flushReferences_eq, flushFootnotes_eq]
  refine ⟨h.collecting, h.type, by simp, fun e he => ?_, fun e he => h.notes e (keptFootnotes_mem.mp he).1⟩
  simp only [keptFnRefs, List.mem_filter] at he
  exact h.fnRefs e he.1.1

theorem group_end {α : Type} {out : List Char} {f : α → List Char} {xs : List α} (h : OneBreak out)
    (hx : ∀ x ∈ xs, OneBreak (f x)) : OneBreak (out ++ groupText out f xs) := by
  rw [groupText]
  split
  · simpa using h
  · next hne =>
    obtain ⟨ys, y, rfl⟩ : ∃ ys y, xs = ys ++ [y] := ⟨_, _, (List.dropLast_concat_getLast hne).symm⟩
    rw [List.map_append, List.flatten_append]
    simp only [List.map_cons, List.map_nil, List.flatten_cons, List.flatten_nil, List.append_nil, ← List.append_assoc]
    exact (hx y (by simp)).left _

theorem NoteInv.end {st : St} (h : NoteInv cx (fun r => r.url.getLast? ≠ some '\n') st) (b : Option Nat) (ho : OneBreak st.output) :
    OneBreak (flushAll cx b st).output := by
  rw [flushAll, flushFootnoteRefs_eq, flushReferences_eq, flushFootnotes_eq]
  refine group_end (group_end (group_end ho ?_) ?_) ?_
  · intro f hf
    obtain ⟨e, he, rfl, _⟩ := dueFootnotes_mem.mp hf
    exact h.notes e he
  · intro r hr
    obtain ⟨⟨e, he, rfl⟩, _⟩ := refsOut_mem.mp hr
    exact reference_end (h.refs e he)
  · intro r hr
    simp only [dueFnRefs, List.mem_map, List.mem_filter] at hr
    obtain ⟨e, he, rfl⟩ := hr
    exact reference_end (h.fnRefs e he.1.1)

theorem topBlock_note {k : Kid} (hk : NoteKid cx P k) (hf : k.node.isFootnoteDefinition = false) {st : St} (h : NoteInv cx P st) :
    NoteInv cx P (serTopBlock cx k st) := by
  have hm : ∀ m, NoteInv cx P { st with skipMode := m } := fun m => ⟨h.collecting, h.type, h.refs, h.fnRefs, h.notes⟩
  rw [serTopBlock]
  split
  · exact h.act hk hf
  · split
    · exact (hm _).act hk hf
    · have : NoteInv cx P (if st.skipMode = .nextBlock then { st with skipMode := .none } else st) := by
        split
        · exact hm _
        · exact h
      simp only
      split
      · exact this.push _
      · exact this.act hk hf

theorem topChild_note {k : Kid} (hk : NoteKid cx P k) (prev : Option Node) (tr : Bool) {st : St}
    (h : NoteInv cx P st) : NoteInv cx P (serTopChild cx prev tr k st).1 := by
  have hf := h.flush (some k.node.pos.startLine)
  have hd : ∀ {s : St} (g l : List Char) (m : SkipMode), NoteInv cx P s → NoteInv cx P (writeDirective g l m s) := fun g l m hs =>
    ⟨hs.collecting, hs.type, hs.refs, hs.fnRefs, hs.notes⟩
  rw [serTopChild]
  split
  · exact h
  · split
    · exact h
    · next hfn =>
      have hfn : k.node.isFootnoteDefinition = false := by simpa using hfn
      split
      · rename_i d e
        have := hk.file
        cases d with
        | disableFile => exact absurd e this
        | disableNextLine => exact hd _ _ _ hf
        | disableNextSection => exact hd _ _ _ hf
        | disable => exact hd _ _ _ hf
        | enable => exact hd _ _ _ h
        | properNouns ns => exact ⟨h.collecting, h.type, h.refs, h.fnRefs, h.notes⟩
        | commonNouns ns => exact ⟨h.collecting, h.type, h.refs, h.fnRefs, h.notes⟩
      · simp only
        split
        · exact topBlock_note hk hfn (hf.push _)
        · exact topBlock_note hk hfn (h.push _)

theorem topLoop_note : ∀ (K : List Kid) (prev : Option Node) (m : Nat) (st : St), (∀ x ∈ K, NoteKid cx P x) →
    NoteInv cx P st → NoteInv cx P (serTopLoop cx prev m K st).1
  | [], prev, m, st, _, h => h
  | k :: K, prev, m, st, hK, h => by
    rw [serTopLoop]
    have := topChild_note (hK k (by simp)) prev (m == 0) h
    split
    · exact this
    · exact topLoop_note K _ _ _ (fun x hx => hK x (by simp [hx])) this

theorem topBlock_noteEnd {k : Kid} {st : St} (h : NoteInv cx P st)
    (ha : ∀ s : St, s.listType = none → OneBreak (k.act s).output)
    (hs : ∀ s, extractSource cx k.node.pos = some s → ∃ c, s.getLast? = some c ∧ c ≠ '\n') : OneBreak (serTopBlock cx k st).output := by
  rw [serTopBlock]
  split
  · exact ha st h.type
  · split
    · exact ha _ h.type
    · have : (if st.skipMode = .nextBlock then { st with skipMode := .none } else st).listType = none := by
        split
        · exact h.type
        · exact h.type
      simp only
      split
      · next src e =>
        obtain ⟨c, h1, h2⟩ := hs src e
        simp only [St.push, ← List.append_assoc]
        exact oneBreak_of (getLast_append_some h1) h2
      · exact ha _ this

theorem topChild_noteEnd {k : Kid} (hk : NoteKid cx P k) (hf : k.node.isFootnoteDefinition = false) (he : BlockEnd cx k.node)
    (prev : Option Node) {st : St} (h : NoteInv cx P st) (ha : ∀ s : St, s.listType = none → OneBreak (k.act s).output)
    (hs : ∀ s, extractSource cx k.node.pos = some s → ∃ c, s.getLast? = some c ∧ c ≠ '\n') :
    OneBreak (serTopChild cx prev false k st).1.output := by
  rw [serTopChild, hf]
  simp only [Bool.false_and, Bool.false_eq_true, if_false]
  split
  · rename_i d e
    have hh : ∃ l, k.node.html? = some l := Option.isSome_iff_exists.mp (directive_html e)
    obtain ⟨l, hl⟩ := hh
    have hb := blockEnd_html he hl
    rw [hl]
    have := hk.file
    cases d with
    | disableFile => exact absurd e this
    | _ =>
      simp only [writeDirective, St.push, Option.getD_some, ← List.append_assoc]
      exact hb.left _
  · split
    · exact topBlock_noteEnd ((h.flush _).push _) ha hs
    · exact topBlock_noteEnd (h.push _) ha hs

/-- Definitions of footnotes are passed over. -/
theorem topLoop_defs : ∀ (K : List Kid) (prev : Option Node) (m : Nat) (st : St),
    (∀ x ∈ K, x.node.isFootnoteDefinition = true) → serTopLoop cx prev m K st = (st, false)
  | [], prev, m, st, _ => rfl
  | k :: K, prev, m, st, h => by
    have hk := h k (by simp)
    have e : serTopChild cx prev (m == 0) k st = (st, false) := by
      rw [serTopChild]
      split
      · rfl
      · simp [hk]
    rw [serTopLoop, e]
    simp only [Bool.false_eq_true, if_false]
    exact topLoop_defs K _ _ _ fun x hx => h x (by simp [hx])

/-- A footnote of one paragraph. -/
theorem NoteInv.define {st : St} (h : NoteInv cx P st) {name : List Char} {q q' : Pos} {is : List Node} (nb : Bool)
    (hu : ∀ r ∈ (uses cx (.mk (.footnoteDefinition name) q [.mk .paragraph q' is])).may, P r)
    (ok : OkAt (uses cx (.mk (.footnoteDefinition name) q [.mk .paragraph q' is])) st
      (ser cx (.mk (.footnoteDefinition name) q [.mk .paragraph q' is]) nb st)) :
    NoteInv cx P (ser cx (.mk (.footnoteDefinition name) q [.mk .paragraph q' is]) nb st) := by
  refine ⟨ok.core.collecting h.collecting, (ctx_eq ok.ctx).2.1.trans h.type,
    MapGrow.values (P := P) ok.core.pending h.refs hu,
    MapGrow.values (P := fun v : Ref × Nat => P v.1) ok.core.fnRefs h.fnRefs fun v hv => hu _ hv, ?_⟩
  have hp : ∀ (rs : List Ref) (s : St), (addReferences s rs).footnotes.pending = s.footnotes.pending := by
    intro rs
    induction rs with
    | nil => exact fun _ => rfl
    | cons r rs ih =>
      intro s
      show (addReferences (addReference s r) rs).footnotes.pending = _
      rw [ih, addReference]
      split <;> rfl
  intro e he
  rw [ser, dispatch, serFootnoteDefinition] at he
  simp only [serKids_nodes, show hasBlocks [Node.mk .paragraph q' is] = false by simp [hasBlocks, Node.value], Bool.false_eq_true, if_false, hp] at he
  rcases mem_mapInsert he with rfl | he
  · exact footnoteText_end cx rfl
  · exact h.notes e he

theorem NoteInv.defs : ∀ (K : List Kid) (st : St), (∀ k ∈ K, NoteKid cx P k ∧ ∃ name q q' is nb,
      k = ⟨.mk (.footnoteDefinition name) q [.mk .paragraph q' is], ser cx (.mk (.footnoteDefinition name) q [.mk .paragraph q' is]) nb⟩) →
    NoteInv cx P st → NoteInv cx P (runKids K st)
  | [], st, _, h => h
  | k :: K, st, hK, h => by
    obtain ⟨hk, name, q, q', is, nb, rfl⟩ := hK k (by simp)
    exact NoteInv.defs K _ (fun x hx => hK x (by simp [hx])) (h.define nb hk.refs (hk.ok.act hk.block st))

theorem serKids_def (cs : List Node) : ∀ k ∈ serKids cx cs, ∃ nb, k = ⟨k.node, ser cx k.node nb⟩ := by
  induction cs with
  | nil => simp [serKids]
  | cons c cs ih =>
    intro k hk
    rw [serKids] at hk
    rcases List.mem_cons.mp hk with rfl | hk
    · exact ⟨_, rfl⟩
    · exact ih k hk

theorem ser_deaf_kid (cs : List Node) (hw : wellPlacedList cs = true)
    (hn : ∀ c ∈ cs, c.isFootnoteDefinition = false → noteFree c = true) :
    ∀ k ∈ serKids cx cs, k.node.isFootnoteDefinition = false → Deaf k.act := by
  intro k hk hf
  have hm : k.node ∈ cs := by
    have : k.node ∈ (serKids cx cs).map (·.node) := List.mem_map.mpr ⟨k, hk, rfl⟩
    rwa [serKids_nodes] at this
  obtain ⟨nb, e⟩ := serKids_def cs k hk
  rw [e]
  exact ser_deaf cx k.node nb (wellPlacedList_mem hw hm) (hn _ hm hf)

theorem document_note_end {p : Pos} {A F : List Node} {n : Node} (hw : wellPlacedDoc (A ++ n :: F) = true)
    (hn : ∀ c ∈ A ++ n :: F, c.isFootnoteDefinition = false → noteFree c = true)
    (hdef : ∀ c ∈ A ++ n :: F, c.isFootnoteDefinition = true → ∃ q is, c.children = [.mk .paragraph q is])
    (hnf : n.isFootnoteDefinition = false) (hF : ∀ c ∈ F, c.isFootnoteDefinition = true)
    (hd : ∀ m ∈ A ++ n :: F, m.directive ≠ some .disableFile)
    (hu : ∀ r ∈ namedRefs cx (A ++ n :: F), r.url.getLast? ≠ some '\n') (he : BlockEnd cx n)
    (hs : ∀ s, extractSource cx n.pos = some s → ∃ c, s.getLast? = some c ∧ c ≠ '\n') :
    OneBreak (formatDoc cx (.mk .document p (A ++ n :: F))).output := by
  rw [wellPlacedDoc, Bool.and_eq_true, List.all_eq_true] at hw
  have nodes : ∀ k ∈ serKids cx (A ++ n :: F), k.node ∈ A ++ n :: F := fun k hk => by
    have hm : k.node ∈ (serKids cx (A ++ n :: F)).map (·.node) := List.mem_map.mpr ⟨k, hk, rfl⟩
    rwa [serKids_nodes] at hm
  have kids : ∀ k ∈ serKids cx (A ++ n :: F), NoteKid cx (fun r => r.url.getLast? ≠ some '\n') k := fun k hk =>
    ⟨serKids_ok cx _ hw.2 k hk, by simpa using hw.1 _ (nodes k hk), ser_deaf_kid _ hw.2 hn k hk,
      fun r hr => hu r (namedIn_of (uses_named cx k.node r hr) (nodes k hk)), hd _ (nodes k hk)⟩
  rw [formatDoc, ser, dispatch, serDocument]
  simp only [serKids_nodes]
  have h0 : NoteInv cx (fun r => r.url.getLast? ≠ some '\n') (recordLines (footnoteRefLinesList (A ++ n :: F))
      ({ warnings := [] ++ undefinedWarnings cx (A ++ n :: F) } : St)) := by
    have hr : ∀ (ls : List (List Char × Nat)) (s : St), NoteInv cx (fun r => r.url.getLast? ≠ some '\n') s →
        NoteInv cx (fun r => r.url.getLast? ≠ some '\n') (recordLines ls s) := by
      intro ls
      induction ls with
      | nil => exact fun _ h => h
      | cons l ls ih => exact fun s hs => ih _ ⟨hs.collecting, hs.type, hs.refs, hs.fnRefs, hs.notes⟩
    exact hr _ _ ⟨rfl, rfl, by simp, by simp, by simp⟩
  have h1 : NoteInv cx (fun r => r.url.getLast? ≠ some '\n') (serFootnoteDefinitions (serKids cx (A ++ n :: F))
      (recordLines (footnoteRefLinesList (A ++ n :: F)) ({ warnings := [] ++ undefinedWarnings cx (A ++ n :: F) } : St))) := by
    refine NoteInv.defs _ _ (fun k hk => ?_) h0
    rw [List.mem_filter] at hk
    refine ⟨kids k hk.1, ?_⟩
    obtain ⟨nb, e⟩ := serKids_def _ k hk.1
    obtain ⟨q, is, hc⟩ := hdef _ (nodes k hk.1) hk.2
    obtain ⟨⟨v, q', ks⟩, act⟩ := k
    have hv := hk.2
    cases v <;> simp [Node.isFootnoteDefinition, Node.value] at hv
    simp only [Node.children] at hc
    subst hc
    exact ⟨_, _, _, _, nb, e⟩
  generalize serFootnoteDefinitions _ _ = s1 at h1 ⊢
  obtain ⟨K, hsplit, hK⟩ := serKids_split cx n F A
  rw [hsplit] at kids ⊢
  have hlen : K.length = A.length := by rw [← hK, List.length_map]
  have hKd : ∀ k ∈ K, k.node.directive ≠ some .disableFile := fun k hk => (kids k (by simp [hk])).file
  rw [serTopLoop_append cx _ _ _ _ _ (serTopLoop_on (cx := cx) K hKd none (trailingStart (A ++ n :: F)) s1)]
  have h2 := topLoop_note (cx := cx) K none (trailingStart (A ++ n :: F)) s1 (fun x hx => kids x (by simp [hx])) h1
  generalize (serTopLoop cx none (trailingStart (A ++ n :: F)) K s1).1 = s2 at h2 ⊢
  generalize (K.getLast?.map (·.node)).or none = pr
  have hkn := kids ⟨n, ser cx n (nextIsBracket F)⟩ (by simp)
  have hon : ∀ tr, (serTopChild cx pr tr ⟨n, ser cx n (nextIsBracket F)⟩ s2).2 = false := by
    intro tr
    have := serTopLoop_on (cx := cx) [⟨n, ser cx n (nextIsBracket F)⟩] (by simpa using hkn.file) pr (if tr then 0 else 1) s2
    rw [serTopLoop] at this
    cases tr
    · simp only [Bool.false_eq_true, if_false] at this
      cases h : (serTopChild cx pr false ⟨n, ser cx n (nextIsBracket F)⟩ s2).2
      · rfl
      · rw [show ((1 : Nat) == 0) = false from rfl, h] at this
        simp [h] at this
    · simp only [if_true] at this
      cases h : (serTopChild cx pr true ⟨n, ser cx n (nextIsBracket F)⟩ s2).2
      · rfl
      · rw [show ((0 : Nat) == 0) = true from rfl, h] at this
        simp [h] at this
  rw [serTopLoop]
  simp only [hon, Bool.false_eq_true, if_false]
  rw [topLoop_defs (cx := cx) (serKids cx F) _ _ _ (by
    intro x hx
    have hm : x.node ∈ (serKids cx F).map (·.node) := List.mem_map.mpr ⟨x, hx, rfl⟩
    rw [serKids_nodes] at hm
    exact hF _ hm)]
  simp only [Bool.false_eq_true, if_false]
  have hFh : F.filterMap Node.html? = [] := by
    rw [List.filterMap_eq_nil_iff]
    intro c hc
    have := hF c hc
    obtain ⟨v, q, ks⟩ := c
    cases v <;> simp [Node.isFootnoteDefinition, Node.value] at this
    rfl
  by_cases ht : trailingStart (A ++ n :: F) ≤ A.length
  · have hdrop : (A ++ n :: F).drop (trailingStart (A ++ n :: F)) = A.drop (trailingStart (A ++ n :: F)) ++ n :: F := by
      rw [List.drop_append_of_le_length ht]
    have hp := trailing_all (A ++ n :: F) n (by rw [hdrop]; simp)
    have hh : ∃ l, n.html? = some l := by
      rcases hp with hp | hp
      · rw [Node.isPlainHtml, Bool.and_eq_true] at hp
        exact Option.isSome_iff_exists.mp hp.1
      · rw [hnf] at hp; cases hp
    obtain ⟨l, hl⟩ := hh
    rw [hdrop, outputTrailing, List.filterMap_append]
    have : (n :: F).filterMap Node.html? = [l] := by simp [hl, hFh]
    rw [this]
    split
    · next e => simp at e
    · next l' ls e =>
      simp only [St.push]
      have e2 : l' ++ ls.flatten = ((A.drop (trailingStart (A ++ n :: F))).filterMap Node.html?).flatten ++ l := by
        have := congrArg List.flatten e
        simpa using this.symm
      rw [e2, ← List.append_assoc]
      exact (blockEnd_html he hl).left _
  · have hdrop : ∀ s : St, outputTrailing ((A ++ n :: F).drop (trailingStart (A ++ n :: F))) s = s := by
      intro s
      have e : ((A ++ n :: F).drop (trailingStart (A ++ n :: F))).filterMap Node.html? = [] := by
        obtain ⟨j, hj⟩ : ∃ j, trailingStart (A ++ n :: F) = A.length + (j + 1) :=
          ⟨trailingStart (A ++ n :: F) - A.length - 1, by omega⟩
        rw [hj, List.drop_append, List.drop_eq_nil_of_le (by omega), List.nil_append,
          show A.length + (j + 1) - A.length = j + 1 by omega, List.drop_succ_cons, List.filterMap_eq_nil_iff]
        rw [List.filterMap_eq_nil_iff] at hFh
        exact fun c hc => hFh c (List.mem_of_mem_drop hc)
      rw [outputTrailing, e]
    rw [hdrop]
    have : (trailingStart (A ++ n :: F) - K.length == 0) = false := by
      rw [hlen]; simp; omega
    rw [this]
    have hwn : wellPlaced n = true := wellPlacedList_mem hw.2 (by simp)
    exact (topChild_note hkn _ _ h2).end none
      (topChild_noteEnd hkn hnf he pr h2 (fun s hs => block_end he hwn _ s fun _ => hs) hs)

end Hongdown
