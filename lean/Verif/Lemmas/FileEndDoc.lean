import Verif.Lemmas.FileEnd

/-!
# The end of a document
-/

namespace Hongdown
open Model Spec

/-- The state of the loop over the blocks of a document without footnotes. -/
structure EndInv (P : Ref → Prop) (st : St) : Prop where
  notes : NoNotes st
  type : st.listType = none
  refs : ∀ e ∈ st.pendingReferences, P e.2

/-- A block of such a document. -/
structure EndKid (cx : Cx) (P : Ref → Prop) (k : Kid) : Prop where
  ok : KidOk cx k
  deaf : Deaf k.act
  block : isItemLike k.node = false
  refs : ∀ r ∈ (uses cx k.node).may, P r
  note : k.node.isFootnoteDefinition = false
  file : k.node.directive ≠ some .disableFile

theorem EndInv.act {cx : Cx} {P : Ref → Prop} {k : Kid} (hk : EndKid cx P k) {st : St} (h : EndInv P st) : EndInv P (k.act st) := by
  have ok := hk.ok.act hk.block st
  refine ⟨h.notes.of ((hk.deaf st st rfl).2 h.notes.collecting), (ctx_eq ok.ctx).2.1.trans h.type, ?_⟩
  exact MapGrow.values (P := P) ok.core.pending h.refs hk.refs

theorem EndInv.push {P : Ref → Prop} {st : St} (h : EndInv P st) (t : List Char) : EndInv P (st.push t) := ⟨h.notes, h.type, h.refs⟩

theorem EndInv.flush {P : Ref → Prop} {st : St} (h : EndInv P st) (cx : Cx) (b : Option Nat) : EndInv P (flushAll cx b st) := by
  obtain ⟨e, hn⟩ := flushAll_references cx b h.notes
  rw [e]
  refine ⟨hn, ?_, ?_⟩
  · rw [flushReferences_eq]; exact h.type
  · rw [flushReferences_eq]; simp

theorem topBlock_inv {cx : Cx} {P : Ref → Prop} {k : Kid} (hk : EndKid cx P k) {st : St} (h : EndInv P st) :
    EndInv P (serTopBlock cx k st) := by
  have hm : ∀ m, EndInv P { st with skipMode := m } := fun m => ⟨h.notes, h.type, h.refs⟩
  rw [serTopBlock]
  split
  · exact h.act hk
  · split
    · exact (hm _).act hk
    · have : EndInv P (if st.skipMode = .nextBlock then { st with skipMode := .none } else st) := by
        split
        · exact hm _
        · exact h
      simp only
      split
      · exact this.push _
      · exact this.act hk

theorem topChild_inv {cx : Cx} {P : Ref → Prop} {k : Kid} (hk : EndKid cx P k) (prev : Option Node) (tr : Bool) {st : St}
    (h : EndInv P st) : EndInv P (serTopChild cx prev tr k st).1 := by
  have hf := h.flush cx (some k.node.pos.startLine)
  have hd : ∀ {s : St} (g l : List Char) (m : SkipMode), EndInv P s → EndInv P (writeDirective g l m s) := fun g l m hs =>
    ⟨hs.notes, hs.type, hs.refs⟩
  rw [serTopChild]
  split
  · exact h
  · split
    · exact h
    · split
      · rename_i d e
        have := hk.file
        cases d with
        | disableFile => exact absurd e this
        | disableNextLine => exact hd _ _ _ hf
        | disableNextSection => exact hd _ _ _ hf
        | disable => exact hd _ _ _ hf
        | enable => exact hd _ _ _ h
        | properNouns ns => exact ⟨h.notes, h.type, h.refs⟩
        | commonNouns ns => exact ⟨h.notes, h.type, h.refs⟩
      · simp only
        split
        · exact topBlock_inv hk (hf.push _)
        · exact topBlock_inv hk (h.push _)

theorem topChild_on {cx : Cx} {P : Ref → Prop} {k : Kid} (hk : EndKid cx P k) (prev : Option Node) (tr : Bool) (st : St) :
    (serTopChild cx prev tr k st).2 = false := by
  have := serTopLoop_on (cx := cx) [k] (by simpa using hk.file) prev (if tr then 0 else 1) st
  rw [serTopLoop] at this
  cases tr
  · simp only [Bool.false_eq_true, if_false] at this
    cases h : (serTopChild cx prev false k st).2
    · rfl
    · rw [show ((1 : Nat) == 0) = false from rfl, h] at this
      simp [h] at this
  · simp only [if_true] at this
    cases h : (serTopChild cx prev true k st).2
    · rfl
    · rw [show ((0 : Nat) == 0) = true from rfl, h] at this
      simp [h] at this

theorem topLoop_snoc {cx : Cx} {P : Ref → Prop} (k : Kid) (hk : EndKid cx P k) : ∀ (K : List Kid) (prev : Option Node) (m : Nat) (st : St),
    (∀ x ∈ K, EndKid cx P x) → EndInv P st → ∃ p s, serTopLoop cx prev m (K ++ [k]) st =
      ((serTopChild cx p (m - K.length == 0) k s).1, false) ∧ EndInv P s
  | [], prev, m, st, _, h => by
    refine ⟨prev, st, ?_, h⟩
    rw [List.nil_append, serTopLoop]
    simp only [topChild_on hk, Bool.false_eq_true, if_false, serTopLoop, List.length_nil, Nat.sub_zero]
  | x :: K, prev, m, st, hK, h => by
    obtain ⟨p, s, h1, h2⟩ := topLoop_snoc k hk K (some x.node) (m - 1) (serTopChild cx prev (m == 0) x st).1
      (fun y hy => hK y (by simp [hy])) (topChild_inv (hK x (by simp)) prev _ h)
    refine ⟨p, s, ?_, h2⟩
    rw [List.cons_append, serTopLoop]
    simp only [topChild_on (hK x (by simp)), Bool.false_eq_true, if_false]
    rw [h1, List.length_cons, show m - 1 - K.length = m - (K.length + 1) by omega]

theorem reference_end {r : Ref} (h : r.url.getLast? ≠ some '\n') : OneBreak (referenceText r) := by
  rw [referenceText]
  simp only [titlePart]
  split
  · rw [List.append_nil]
    cases hl : r.url.getLast? with
    | none =>
      have : r.url = [] := by simpa using hl
      rw [this, List.append_nil]
      exact oneBreak_of (c := ' ') (getLast_append_some rfl) (by decide)
    | some c =>
      exact oneBreak_of (c := c) (getLast_append_some hl) (by rintro rfl; exact h hl)
  · exact oneBreak_of (c := '"') (getLast_append_some (getLast_append_some rfl)) (by decide)

theorem flush_end {cx : Cx} {st : St} (h : EndInv (fun r => r.url.getLast? ≠ some '\n') st) (b : Option Nat) (ho : OneBreak st.output) :
    OneBreak (flushAll cx b st).output := by
  obtain ⟨e, _⟩ := flushAll_references cx b h.notes
  rw [e, flushReferences_eq]
  simp only [groupText]
  split
  · simpa using ho
  · next hne =>
    obtain ⟨xs, x, ex⟩ : ∃ xs x, refsOut st = xs ++ [x] := ⟨_, _, (List.dropLast_concat_getLast hne).symm⟩
    rw [ex, List.map_append, List.flatten_append]
    simp only [List.map_cons, List.map_nil, List.flatten_cons, List.flatten_nil, List.append_nil, ← List.append_assoc]
    refine (reference_end ?_).left _
    obtain ⟨⟨e, he, rfl⟩, _⟩ := refsOut_mem.mp (show x ∈ refsOut st by rw [ex]; simp)
    exact h.refs e he

/-- The text in the source ends with some character other than a line break. -/
theorem topBlock_end {cx : Cx} {k : Kid} {P : Ref → Prop} {st : St} (h : EndInv P st)
    (ha : ∀ s : St, s.listType = none → OneBreak (k.act s).output)
    (hs : ∀ s, extractSource cx k.node.pos = some s → ∃ c, s.getLast? = some c ∧ c ≠ '\n') : OneBreak (serTopBlock cx k st).output := by
  rw [serTopBlock]
  split
  · exact ha st h.type
  · split
    · exact ha _ h.type
    · have : (if st.skipMode = .nextBlock then { st with skipMode := .none } else st).listType = none := by
        split
        · exact h.type
        · exact h.type
      simp only
      split
      · next src e =>
        obtain ⟨c, h1, h2⟩ := hs src e
        simp only [St.push, ← List.append_assoc]
        exact oneBreak_of (getLast_append_some h1) h2
      · exact ha _ this

theorem blockEnd_html {cx : Cx} {n : Node} (h : BlockEnd cx n) {l : List Char} (hl : n.html? = some l) : OneBreak l := by
  cases h <;> simp [Node.html?, Node.value] at hl
  subst hl
  assumption

theorem topChild_end {cx : Cx} {P : Ref → Prop} {k : Kid} (hk : EndKid cx P k) (he : BlockEnd cx k.node) (prev : Option Node) {st : St}
    (h : EndInv P st) (ha : ∀ s : St, s.listType = none → OneBreak (k.act s).output)
    (hs : ∀ s, extractSource cx k.node.pos = some s → ∃ c, s.getLast? = some c ∧ c ≠ '\n') :
    OneBreak (serTopChild cx prev false k st).1.output := by
  rw [serTopChild, hk.note]
  simp only [Bool.false_and, Bool.false_eq_true, if_false]
  split
  · rename_i d e
    have hh : ∃ l, k.node.html? = some l := Option.isSome_iff_exists.mp (directive_html e)
    obtain ⟨l, hl⟩ := hh
    have hb := blockEnd_html he hl
    rw [hl]
    have := hk.file
    cases d with
    | disableFile => exact absurd e this
    | _ =>
      simp only [writeDirective, St.push, Option.getD_some, ← List.append_assoc]
      exact hb.left _
  · split
    · exact topBlock_end ((h.flush cx _).push _) ha hs
    · exact topBlock_end (h.push _) ha hs

theorem document_end {cx : Cx} {p : Pos} {A : List Node} {n : Node} (hw : wellPlacedDoc (A ++ [n]) = true)
    (hn : noteFreeList (A ++ [n]) = true) (hd : ∀ m ∈ A ++ [n], m.directive ≠ some .disableFile)
    (hu : ∀ r ∈ namedRefs cx (A ++ [n]), r.url.getLast? ≠ some '\n') (he : BlockEnd cx n)
    (hs : ∀ s, extractSource cx n.pos = some s → ∃ c, s.getLast? = some c ∧ c ≠ '\n') :
    OneBreak (formatDoc cx (.mk .document p (A ++ [n]))).output := by
  have hfn : ∀ m ∈ A ++ [n], m.isFootnoteDefinition = false := fun m hm => noteFree_def (noteFreeList_mem hn m hm)
  rw [wellPlacedDoc, Bool.and_eq_true, List.all_eq_true] at hw
  have nodes : ∀ k ∈ serKids cx (A ++ [n]), k.node ∈ A ++ [n] := fun k hk => by
    have hm : k.node ∈ (serKids cx (A ++ [n])).map (·.node) := List.mem_map.mpr ⟨k, hk, rfl⟩
    rwa [serKids_nodes] at hm
  have kids : ∀ k ∈ serKids cx (A ++ [n]), EndKid cx (fun r => r.url.getLast? ≠ some '\n') k := fun k hk =>
    ⟨serKids_ok cx _ hw.2 k hk, serKids_deaf cx _ hw.2 hn k hk, by simpa using hw.1 _ (nodes k hk),
      fun r hr => hu r (namedIn_of (uses_named cx k.node r hr) (nodes k hk)), hfn _ (nodes k hk), hd _ (nodes k hk)⟩
  rw [formatDoc, ser, dispatch, serDocument]
  simp only [serKids_nodes]
  rw [footnotesNone hfn]
  have h0 : EndInv (fun r => r.url.getLast? ≠ some '\n') (recordLines (footnoteRefLinesList (A ++ [n]))
      ({ warnings := [] ++ undefinedWarnings cx (A ++ [n]) } : St)) := by
    have hr : ∀ (ls : List (List Char × Nat)) (s : St), EndInv (fun r => r.url.getLast? ≠ some '\n') s →
        EndInv (fun r => r.url.getLast? ≠ some '\n') (recordLines ls s) := by
      intro ls
      induction ls with
      | nil => exact fun _ h => h
      | cons l ls ih => exact fun s hs => ih _ ⟨hs.notes, hs.type, hs.refs⟩
    exact hr _ _ ⟨rfl, rfl, by simp⟩
  obtain ⟨K, nb, eK⟩ := serKids_snoc cx n A
  rw [eK] at kids ⊢
  have hlen : K.length = A.length := by
    have := congrArg List.length (serKids_nodes cx (A ++ [n]))
    rw [eK] at this
    simpa using this
  have hkn := kids ⟨n, ser cx n nb⟩ (by simp)
  obtain ⟨pr, s, h1, h2⟩ := topLoop_snoc ⟨n, ser cx n nb⟩ hkn K none (trailingStart (A ++ [n])) _ (fun x hx => kids x (by simp [hx])) h0
  rw [h1]
  simp only [Bool.false_eq_true, if_false]
  by_cases ht : trailingStart (A ++ [n]) ≤ A.length
  · have hdrop : (A ++ [n]).drop (trailingStart (A ++ [n])) = A.drop (trailingStart (A ++ [n])) ++ [n] := by
      rw [List.drop_append_of_le_length ht]
    have hp := trailing_all (A ++ [n]) n (by rw [hdrop]; simp)
    have hh : ∃ l, n.html? = some l := by
      rcases hp with hp | hp
      · rw [Node.isPlainHtml, Bool.and_eq_true] at hp
        exact Option.isSome_iff_exists.mp hp.1
      · rw [hfn n (by simp)] at hp; cases hp
    obtain ⟨l, hl⟩ := hh
    rw [hdrop, outputTrailing, List.filterMap_append]
    have : [n].filterMap Node.html? = [l] := by simp [hl]
    rw [this]
    split
    · next e => simp at e
    · next l' ls e =>
      simp only [St.push]
      have e2 : l' ++ ls.flatten = ((A.drop (trailingStart (A ++ [n]))).filterMap Node.html?).flatten ++ l := by
        have := congrArg List.flatten e
        simpa using this.symm
      rw [e2, ← List.append_assoc]
      exact (blockEnd_html he hl).left _
  · have hdrop : (A ++ [n]).drop (trailingStart (A ++ [n])) = [] := by
      rw [List.drop_eq_nil_iff]; simp; omega
    rw [hdrop]
    have : (trailingStart (A ++ [n]) - K.length == 0) = false := by
      rw [hlen]; simp; omega
    rw [this]
    have hwn : wellPlaced n = true := by
      have := wellPlacedList_append.mp hw.2
      simpa [wellPlacedList] using this.2
    exact flush_end (topChild_inv hkn _ _ h2) none (topChild_end hkn he pr h2 (fun s hs => block_end he hwn nb s fun _ => hs) hs)

end Hongdown
