import Verif.Spec.Section
import Verif.Lemmas.KeepNotes
import Verif.Lemmas.Layout
import Verif.Lemmas.Lists

/-!
# Where the loop over the blocks writes a footnote

Lemmas for `Verif.Props.Section`.
-/

namespace Hongdown.Model
open Spec

/-! ### Reference lines -/

mutual
theorem footnoteRefLines_eq : ∀ n : Node, footnoteRefLines n = (preorder n).filterMap noteRef
  | .mk v p cs => by
    have ih := footnoteRefLinesList_eq cs
    rw [preorder, List.filterMap_cons]
    cases v <;> simp only [footnoteRefLines, noteRef, Node.value, Node.pos, ih]

theorem footnoteRefLinesList_eq : ∀ ns : List Node,
    footnoteRefLinesList ns = (preorderList ns).filterMap noteRef
  | [] => by simp [footnoteRefLinesList, preorderList]
  | n :: ns => by
    rw [footnoteRefLinesList, preorderList, List.filterMap_append, footnoteRefLines_eq n,
      footnoteRefLinesList_eq ns]
end

theorem recordLines_keep {name : List Char} {l : Nat} : ∀ (ls : List (List Char × Nat)) (st : St),
    st.footnotes.referenceLines.lookup name = some l →
    (recordLines ls st).footnotes.referenceLines.lookup name = some l
  | [], _, h => h
  | e :: ls, st, h => recordLines_keep ls (recordReferenceLine e.1 e.2 st) (mapOrInsert_lookup h)

theorem recordLines_first {name : List Char} {l : Nat} (after : List (List Char × Nat)) :
    ∀ (before : List (List Char × Nat)) (st : St), (∀ e ∈ before, e.1 ≠ name) →
    st.footnotes.referenceLines.lookup name = none →
    (recordLines (before ++ (name, l) :: after) st).footnotes.referenceLines.lookup name = some l
  | [], st, _, h => by
    refine recordLines_keep after (recordReferenceLine name l st) ?_
    show (mapOrInsert name l st.footnotes.referenceLines).lookup name = _
    rw [mapOrInsert, h]
    simp [List.lookup_append, h, List.lookup]
  | e :: before, st, hb, h => by
    refine recordLines_first after before (recordReferenceLine e.1 e.2 st)
      (fun x hx => hb x (by simp [hx])) ?_
    show (mapOrInsert e.1 e.2 st.footnotes.referenceLines).lookup name = _
    rw [mapOrInsert]
    split
    · exact h
    · have hne : (name == e.1) = false := by simpa using (hb e (by simp)).symm
      simp [List.lookup_append, h, List.lookup, hne]

/-! ### Flushes -/

variable {cx : Cx} {name : List Char} {p : Footnote → Prop}

theorem PendingNote.view {a b : St} (h : PendingNote name p a) (hv : refView b = refView a) :
    PendingNote name p b := by
  simp only [refView, RefView.mk.injEq] at hv
  obtain ⟨_, _, _, h4, h5, _⟩ := hv
  rw [PendingNote, h4, h5]
  exact h

theorem PendingNote.keep {a : St} (h : PendingNote name p a) (b : Option Nat)
    (hd : ∀ f, p f → dueBefore b f.referenceLine = false) : PendingNote name p (flushAll cx b a) := by
  obtain ⟨h1, h2, h3, h4⟩ := h
  rw [Model.flushAll, flushFootnoteRefs_eq, flushReferences_eq, flushFootnotes_eq]
  refine ⟨?_, ?_, ?_, ?_⟩
  · simp only [List.mem_append, not_or]
    refine ⟨h1, fun hm => ?_⟩
    obtain ⟨f, hf, hn⟩ := List.mem_map.mp hm
    obtain ⟨e, he, rfl, hm, hdue⟩ := dueFootnotes_mem.mp hf
    rw [hd _ (h4 e he (by rw [h3 e he, hn]))] at hdue
    cases hdue
  · obtain ⟨e, he, hn⟩ := List.mem_map.mp h2
    exact List.mem_map.mpr ⟨e, keptFootnotes_mem.mpr ⟨he, by rw [hn]; exact h1, hd _ (h4 e he hn)⟩, hn⟩
  · intro e he
    exact h3 e (keptFootnotes_mem.mp he).1
  · intro e he
    exact h4 e (keptFootnotes_mem.mp he).1

theorem PendingNote.due {a : St} (h : PendingNote name p a) (b : Option Nat)
    (hd : ∀ f, p f → dueBefore b f.referenceLine = true) :
    ∃ f rest, f.name = name ∧ p f ∧ (flushAll cx b a).output = a.output ++ rest ∧
      footnoteText cx f <:+: rest := by
  obtain ⟨h1, h2, h3, h4⟩ := h
  obtain ⟨x, he, hn⟩ := List.mem_map.mp h2
  have hp := h4 x he hn
  have hf : x.2 ∈ footnotesOut b a := dueFootnotes_mem.mpr ⟨x, he, rfl, by rw [hn]; exact h1, hd _ hp⟩
  have e : ∃ t, (flushAll cx b a).output =
      a.output ++ (groupText a.output (footnoteText cx) (footnotesOut b a) ++ t) := by
    rw [Model.flushAll, flushFootnoteRefs_eq, flushReferences_eq, flushFootnotes_eq]
    simp only [List.append_assoc]
    exact ⟨_, rfl⟩
  obtain ⟨t, e⟩ := e
  exact ⟨_, _, by rw [← h3 _ he, hn], hp, e, (infix_groupText hf).trans (List.prefix_append _ _).isInfix⟩

/-- After the text `P` the footnote was written, or it is still pending. -/
def NoteAfter (cx : Cx) (P : List Char) (name : List Char) (p : Footnote → Prop) (st : St) : Prop :=
  (∃ f rest, f.name = name ∧ p f ∧ st.output = P ++ rest ∧ footnoteText cx f <:+: rest) ∨
    (P <+: st.output ∧ PendingNote name p st)

theorem NoteAfter.extend {P : List Char} {a b : St} (ho : a.output <+: b.output)
    (h : NoteAfter cx P name p a) (hp : PendingNote name p a → PendingNote name p b) :
    NoteAfter cx P name p b := by
  rcases h with ⟨f, rest, h1, h2, h3, h4⟩ | ⟨h1, h2⟩
  · obtain ⟨t, ht⟩ := ho
    exact .inl ⟨f, rest ++ t, h1, h2, by rw [← ht, h3, List.append_assoc],
      h4.trans (List.prefix_append _ _).isInfix⟩
  · exact .inr ⟨h1.trans ho, hp h2⟩

theorem NoteAfter.flush {P : List Char} {a : St} (h : NoteAfter cx P name p a) (b : Option Nat) {l : Nat}
    (hl : ∀ f, p f → f.referenceLine = l) : NoteAfter cx P name p (flushAll cx b a) := by
  have ho : a.output <+: (flushAll cx b a).output := (grows_flushAll cx b a).out
  rcases h with ⟨f, rest, h1, h2, h3, h4⟩ | ⟨h1, h2⟩
  · obtain ⟨t, ht⟩ := ho
    exact .inl ⟨f, rest ++ t, h1, h2, by rw [← ht, h3, List.append_assoc],
      h4.trans (List.prefix_append _ _).isInfix⟩
  · cases hd : dueBefore b l with
    | false => exact .inr ⟨h1.trans ho, PendingNote.keep h2 b fun f hf => by rw [hl f hf, hd]⟩
    | true =>
      obtain ⟨f, rest, e1, e2, e3, e4⟩ := PendingNote.due h2 (cx := cx) b fun f hf => by rw [hl f hf, hd]
      obtain ⟨t, ht⟩ := h1
      exact .inl ⟨f, t ++ rest, e1, e2, by rw [e3, ← ht, List.append_assoc],
        e4.trans (List.suffix_append _ _).isInfix⟩

/-! ### The loop -/

/-- A property that blocks without the footnote and the flushes of the loop keep. -/
structure Closed (cx : Cx) (name : List Char) (Q : St → Prop) : Prop where
  ok : ∀ {u : Uses} {a b : St}, OkAt u a b → name ∉ u.fns → Q a → Q b
  view : ∀ {a b : St}, refView b = refView a → Q a → Q b

theorem Closed.push {Q : St → Prop} (h : Closed cx name Q) {a : St} (s : List Char) (hq : Q a) : Q (a.push s) :=
  h.ok (okAt_push a s) (by simp) hq

theorem serTopBlock_closed {Q : St → Prop} (hQ : Closed cx name Q) {k : Kid} (h : KidOk cx k)
    (hn : name ∉ (uses cx k.node).fns) (hb : isItemLike k.node = false) {st : St} (hq : Q st) :
    Q (serTopBlock cx k st) := by
  have ha : ∀ st, Q st → Q (k.act st) := fun st hq => hQ.ok (h.act hb st) hn hq
  rw [serTopBlock]
  split
  · exact ha st hq
  · split
    · exact ha _ (hQ.view (a := st) rfl hq)
    · have h1 : Q (if st.skipMode = .nextBlock then { st with skipMode := .none } else st) := by
        split
        · exact hQ.view (a := st) rfl hq
        · exact hq
      generalize (if st.skipMode = .nextBlock then { st with skipMode := .none } else st) = st' at h1
      cases extractSource cx k.node.pos with
      | some source => exact hQ.push _ h1
      | none => exact ha _ h1

theorem serTopChild_closed {Q : St → Prop} (hQ : Closed cx name Q) {k : Kid} (h : KidOk cx k)
    (hd : k.node.directive = none)
    (hn : k.node.isFootnoteDefinition = false → name ∉ (uses cx k.node).fns) (hb : isItemLike k.node = false)
    (hf : k.node.isFootnoteDefinition = false → ∀ st, Q st → Q (flushAll cx (some k.node.pos.startLine) st))
    (prev : Option Node) (tr : Bool) {st : St} (hq : Q st) :
    Q (serTopChild cx prev tr k st).1 ∧ (serTopChild cx prev tr k st).2 = false := by
  rw [serTopChild]
  split
  · exact ⟨hq, rfl⟩
  · split
    · exact ⟨hq, rfl⟩
    · rename_i hnd
      have hn := hn (by simpa using hnd)
      have hf := hf (by simpa using hnd)
      rw [hd]
      simp only []
      refine ⟨?_, trivial⟩
      split
      · exact serTopBlock_closed hQ h hn hb (hQ.push _ (hf _ hq))
      · exact serTopBlock_closed hQ h hn hb (hQ.push _ hq)

theorem serTopLoop_closed {Q : St → Prop} (hQ : Closed cx name Q) : ∀ {kids : List Kid}
    (_ : ∀ k ∈ kids, KidOk cx k) (_ : ∀ k ∈ kids, k.node.directive = none)
    (_ : ∀ k ∈ kids, k.node.isFootnoteDefinition = false → name ∉ (uses cx k.node).fns) (_ : Blocks kids)
    (_ : ∀ k ∈ kids, k.node.isFootnoteDefinition = false →
      ∀ st, Q st → Q (flushAll cx (some k.node.pos.startLine) st))
    (prev : Option Node) (m : Nat) (st : St), Q st →
    Q (serTopLoop cx prev m kids st).1 ∧ (serTopLoop cx prev m kids st).2 = false
  | [], _, _, _, _, _, _, _, _, hq => ⟨hq, rfl⟩
  | k :: ks, h, hd, hn, hb, hf, prev, m, st, hq => by
    have h1 := serTopChild_closed hQ (h k (by simp)) (hd k (by simp)) (hn k (by simp)) (hb k (by simp))
      (hf k (by simp)) prev (m == 0) hq
    rw [serTopLoop, if_neg (by rw [h1.2]; simp)]
    exact serTopLoop_closed hQ (fun k hk => h k (by simp [hk])) (fun k hk => hd k (by simp [hk]))
      (fun k hk => hn k (by simp [hk])) (fun k hk => hb k (by simp [hk])) (fun k hk => hf k (by simp [hk])) _ _ _ h1.1

theorem serTopLoop_append (cx : Cx) : ∀ (a b : List Kid) (prev : Option Node) (m : Nat) (st : St),
    (serTopLoop cx prev m a st).2 = false →
    serTopLoop cx prev m (a ++ b) st =
      serTopLoop cx ((a.getLast?.map (·.node)).or prev) (m - a.length) b (serTopLoop cx prev m a st).1
  | [], b, prev, m, st, _ => by simp [serTopLoop]
  | k :: a, b, prev, m, st, h => by
    rw [serTopLoop] at h
    rw [List.cons_append, serTopLoop, serTopLoop]
    by_cases hr : (serTopChild cx prev (m == 0) k st).2 = true
    · rw [if_pos hr] at h
      rw [h] at hr
      cases hr
    · rw [if_neg hr] at h
      rw [if_neg hr, if_neg hr, serTopLoop_append cx a b _ _ _ h, List.length_cons, Nat.sub_sub, Nat.add_comm 1]
      congr 1
      cases a with
      | nil => simp
      | cons k' a => simp [List.getLast?_cons]

theorem not_off {l : List Node} (n : Node) (h : ∀ m ∈ l, m.directive = none) : ¬ Off l n := by
  intro ho
  cases ho with
  | disable A d B e hd _ => rw [h d (by rw [e]; simp)] at hd; cases hd
  | nextLine A d B e hd _ _ => rw [h d (by rw [e]; simp)] at hd; cases hd
  | nextSection A d B e hd _ _ _ => rw [h d (by rw [e]; simp)] at hd; cases hd

/-- A child before the trailing part. -/
theorem serTopChild_inv {n : Node} {nb : Bool} {before : List Node} {st : St} (hw : wellPlaced n = true)
    (hi : isItemLike n = false) (hd : n.directive = none) (hb : ∀ m ∈ before, m.directive = none)
    (h : TopInv before st) :
    (serTopChild cx before.getLast? false ⟨n, ser cx n nb⟩ st).2 = false ∧
    TopInv (before ++ [n]) (serTopChild cx before.getLast? false ⟨n, ser cx n nb⟩ st).1 ∧
    (n.isFootnoteDefinition = false →
      (serTopChild cx before.getLast? false ⟨n, ser cx n nb⟩ st).1.output =
        (if before ≠ [] ∧ (n.headingLevel = some 2 ∨ n.headingLevel = some 3) then
          flushAll cx (some n.pos.startLine) st else st).output ++ gapBetween before n ++
        formatted cx before n nb) := by
  by_cases hf : n.isFootnoteDefinition = true
  · have e : serTopChild cx before.getLast? false ⟨n, ser cx n nb⟩ st = (st, false) := by
      rw [serTopChild]; simp [hf]
    rw [e]
    refine ⟨rfl, ⟨?_, by rw [declaredProper_snoc before n (.inl hd)]; exact h.view⟩, fun h => ?_⟩
    · rw [modeAfter_snoc, modeStep, hd, h.mode]
      simp [hf]
    · rw [hf] at h; cases h
  · have hf' : n.isFootnoteDefinition = false := by simpa using hf
    have e : serTopChild cx before.getLast? false ⟨n, ser cx n nb⟩ st =
        (serTopBlock cx ⟨n, ser cx n nb⟩ ((if before ≠ [] ∧ (n.headingLevel = some 2 ∨ n.headingLevel = some 3) then
          flushAll cx (some n.pos.startLine) st else st).push (gapBetween before n)), false) := by
      rw [serTopChild]
      simp only [Bool.false_and, hf', hd, blockGap_eq, getLast_isSome]
      simp
    rw [e]
    have hinv : TopInv before ((if before ≠ [] ∧ (n.headingLevel = some 2 ∨ n.headingLevel = some 3) then
          flushAll cx (some n.pos.startLine) st else st).push (gapBetween before n)) := by
      have : TopInv before (if before ≠ [] ∧ (n.headingLevel = some 2 ∨ n.headingLevel = some 3) then
          flushAll cx (some n.pos.startLine) st else st) := by
        split
        · exact ⟨(flushAll_rest _ _ _).1.trans h.mode, (flushAll_view _ _ _).trans h.view⟩
        · exact h
      exact ⟨this.mode, this.view⟩
    obtain ⟨text, h1, h2, h3⟩ := serTopBlock_text (cx := cx) (nb := nb) hw hi hd hf' hinv
    refine ⟨rfl, h2, fun _ => ?_⟩
    show (serTopBlock _ _ _).output = _
    rw [h1]
    rcases h3 with ⟨h3, _⟩ | ⟨_, h3, _⟩
    · rw [h3]; rfl
    · exact absurd h3 (not_off n hb)

theorem serTopLoop_inv : ∀ (kids : List Kid) (before : List Node) (m : Nat) (st : St),
    kids.length ≤ m → (∀ k ∈ kids, ∃ nb, k.act = ser cx k.node nb) →
    (∀ k ∈ kids, wellPlaced k.node = true ∧ isItemLike k.node = false ∧ k.node.directive = none) →
    (∀ n ∈ before, n.directive = none) → TopInv before st →
    TopInv (before ++ kids.map (·.node)) (serTopLoop cx before.getLast? m kids st).1
  | [], before, m, st, _, _, _, _, h => by simpa [serTopLoop] using h
  | k :: ks, before, m, st, hm, ha, hk, hb, h => by
    obtain ⟨n, act⟩ := k
    obtain ⟨nb, hact⟩ := ha _ (List.mem_cons_self ..)
    obtain ⟨h1, h2, h3⟩ := hk _ (List.mem_cons_self ..)
    dsimp only at hact h1 h2 h3
    subst hact
    obtain ⟨e1, e2, _⟩ := serTopChild_inv (cx := cx) (nb := nb) h1 h2 h3 hb h
    have hm0 : (m == 0) = false := by
      cases m with
      | zero => simp at hm
      | succ m => rfl
    rw [serTopLoop, hm0, if_neg (by rw [e1]; simp)]
    have ih := serTopLoop_inv ks (before ++ [n]) (m - 1) _ (by rw [List.length_cons] at hm; omega)
      (fun k hk => ha k (by simp [hk])) (fun k hk' => hk k (by simp [hk'])) (by
        intro x hx
        rcases List.mem_append.mp hx with hx | hx
        · exact hb x hx
        · rw [List.mem_singleton.mp hx]; exact h3) e2
    rw [List.getLast?_append] at ih
    simpa using ih


theorem closed_pending : Closed cx name (PendingNote name p) where
  ok ho hn hq := hq.ok ho hn
  view hv hq := PendingNote.view hq hv

theorem closed_after {P : List Char} : Closed cx name (NoteAfter cx P name p) where
  ok ho hn hq := hq.extend ho.out fun h => h.ok ho hn
  view {a b} hv hq := hq.extend (by
    have : b.output = a.output := congrArg RefView.output hv
    rw [this]; exact List.prefix_rfl) fun h => PendingNote.view h hv

theorem heading_plain {h : Node} (hh : h.headingLevel = some 2 ∨ h.headingLevel = some 3) :
    h.isPlainHtml = false ∧ h.isFootnoteDefinition = false := by
  obtain ⟨v, q, ks⟩ := h
  cases v <;> simp [Node.headingLevel, Node.value, Node.isPlainHtml, Node.isFootnoteDefinition, Node.html?] at hh ⊢

/-- A footnote whose first reference is before a heading is written before it, and one whose first
reference is after it is written after it. -/
theorem formatDoc_section {cx : Cx} (hc : NoFormatter cx) {p : Pos} {A B : List Node} {h : Node}
    (hw : wellPlacedDoc (A ++ h :: B) = true) (hd : ∀ n ∈ A ++ h :: B, n.directive = none)
    (hn : ∀ c ∈ A ++ h :: B, noteFreeList c.children = true) (hnd : (fnNames (A ++ h :: B)).Nodup)
    (hh : h.headingLevel = some 2 ∨ h.headingLevel = some 3) (hA : A ≠ [])
    (hs : ∀ n ∈ A, n.isFootnoteDefinition = false → n.pos.startLine ≤ h.pos.startLine) :
    ∃ X Y, (formatDoc cx (.mk .document p (A ++ h :: B))).output =
        X ++ gapBetween A h ++ formatted cx A h (nextIsBracket B) ++ Y ∧
      ∀ name q fs line, .mk (.footnoteDefinition name) q fs ∈ A ++ h :: B →
        FirstReference (A ++ h :: B) name line →
        (0 < line → line < h.pos.startLine →
          ∃ f : Footnote, f.name = name ∧ VisIn (noteText cx fs) f.content ∧ footnoteText cx f <:+: X) ∧
        (h.pos.startLine ≤ line →
          ∃ f : Footnote, f.name = name ∧ VisIn (noteText cx fs) f.content ∧ footnoteText cx f <:+: Y) := by
  obtain ⟨main, tail, ht⟩ := trailing_exists (A ++ h :: B)
  obtain ⟨C, hmain, hB⟩ := trailing_split ht (heading_plain hh)
  obtain ⟨F, T, _, _, hts⟩ := trailing_spec ht
  have hlen : A.length + 1 ≤ trailingStart (A ++ h :: B) := by
    rw [hts, hmain]; simp only [List.length_append, List.length_cons]; omega
  have hwp : ∀ c ∈ A ++ h :: B, wellPlaced c = true := by
    rw [wellPlacedDoc, Bool.and_eq_true] at hw
    have : ∀ l : List Node, wellPlacedList l = true → ∀ n ∈ l, wellPlaced n = true := by
      intro l
      induction l with
      | nil => simp
      | cons n l ih =>
        intro hl
        rw [wellPlacedList, Bool.and_eq_true] at hl
        intro m hm
        rcases List.mem_cons.mp hm with rfl | hm
        · exact hl.1
        · exact ih hl.2 m hm
    exact this _ hw.2
  have hwl : wellPlacedList (A ++ h :: B) = true := by
    rw [wellPlacedDoc, Bool.and_eq_true] at hw
    exact hw.2
  have hbl : ∀ c ∈ A ++ h :: B, isItemLike c = false := by
    intro c hc
    rw [wellPlacedDoc, Bool.and_eq_true] at hw
    simpa using List.all_eq_true.mp hw.1 _ hc
  have hok := serKids_ok cx (A ++ h :: B) hwl
  have hnodes := serKids_nodes cx (A ++ h :: B)
  obtain ⟨A', hsplit, hA'⟩ := serKids_split cx h B A
  have hact : ∀ (cs : List Node), ∀ k ∈ serKids cx cs, ∃ nb, k.act = ser cx k.node nb := by
    intro cs
    induction cs with
    | nil => simp [serKids]
    | cons c cs ih =>
      intro k hk
      rw [serKids] at hk
      rcases List.mem_cons.mp hk with rfl | hk
      · exact ⟨_, rfl⟩
      · exact ih k hk
  have hact := hact (A ++ h :: B)
  have hmem : ∀ k ∈ serKids cx (A ++ h :: B), k.node ∈ A ++ h :: B := by
    intro k hk
    rw [← hnodes]
    exact List.mem_map.mpr ⟨k, hk, rfl⟩
  have hb : Blocks (serKids cx (A ++ h :: B)) := fun k hk => hbl _ (hmem k hk)
  have hfree : ∀ name, ∀ k ∈ serKids cx (A ++ h :: B), k.node.isFootnoteDefinition = false →
      name ∉ (uses cx k.node).fns := by
    intro name k hk hkd
    rw [uses_noteFree cx k.node]
    · simp
    · have := hn _ (hmem k hk)
      obtain ⟨⟨v, q', gs⟩, act⟩ := k
      rw [noteFree, Bool.and_eq_true]
      refine ⟨?_, this⟩
      cases v <;> simp [Node.isFootnoteDefinition, Node.value] at hkd <;> rfl
  have hfd : h.isFootnoteDefinition = false := (heading_plain hh).2
  -- the run
  rw [formatDoc, ser, dispatch, serDocument, hnodes]
  generalize hs1 : ({ ({} : St) with warnings := ({} : St).warnings ++ undefinedWarnings cx (A ++ h :: B) } : St) = s1
  have hrec : ∀ (ls : List (List Char × Nat)) (s : St), view (recordLines ls s) = view s := by
    intro ls
    induction ls with
    | nil => exact fun _ => rfl
    | cons l ls ih => exact fun s => (ih (recordReferenceLine l.1 l.2 s)).trans rfl
  have hv := recordLines_view (footnoteRefLinesList (A ++ h :: B)) s1
  have hvv := hrec (footnoteRefLinesList (A ++ h :: B)) s1
  have hlook : ∀ name line, FirstReference (A ++ h :: B) name line →
      (recordLines (footnoteRefLinesList (A ++ h :: B)) s1).footnotes.referenceLines.lookup name = some line := by
    intro name line ⟨before, after, e, hne⟩
    rw [footnoteRefLinesList_eq, e]
    exact recordLines_first after before s1 hne (by rw [← hs1]; rfl)
  have hunseen : ∀ name, Unseen name (recordLines (footnoteRefLinesList (A ++ h :: B)) s1) := by
    intro name
    have := hv.1
    simp only [refView, RefView.mk.injEq] at this
    obtain ⟨_, _, _, h4, h5, _⟩ := this
    rw [Unseen, h4, h5, ← hs1]
    simp
  generalize recordLines (footnoteRefLinesList (A ++ h :: B)) s1 = s2 at *
  obtain ⟨f1, f2, f3⟩ := footnoteDefinitions_state (cx := cx) (A ++ h :: B) s2 hw (by
    have := congrArg St.descriptionDetailsFirstList hvv
    rw [← hs1] at this
    exact this)
  have hpend : ∀ name q fs line, .mk (.footnoteDefinition name) q fs ∈ A ++ h :: B →
      FirstReference (A ++ h :: B) name line →
      PendingNote name (fun f => VisIn (noteText cx fs) f.content ∧ f.referenceLine = line)
        (serFootnoteDefinitions (serKids cx (A ++ h :: B)) s2) := by
    intro name q fs line hm hr
    exact (defs_pending hc (A ++ h :: B) hwl hbl hn hnd hm s2 (hunseen name)).mono
      fun f hf => ⟨hf.1, hf.2 line (hlook name line hr)⟩
  have hinv : TopInv [] (serFootnoteDefinitions (serKids cx (A ++ h :: B)) s2) :=
    ⟨f2.trans (hv.2.1.trans (by rw [← hs1]; rfl)), f3.trans (hvv.trans (by rw [← hs1]; rfl))⟩
  generalize serFootnoteDefinitions (serKids cx (A ++ h :: B)) s2 = s3 at *
  have hAmem : ∀ k ∈ A', k ∈ serKids cx (A ++ h :: B) := by
    intro k hk; rw [hsplit]; simp [hk]
  have hBmem : ∀ k ∈ serKids cx B, k ∈ serKids cx (A ++ h :: B) := by
    intro k hk; rw [hsplit]; simp [hk]
  have hAl : A'.length = A.length := by rw [← hA', List.length_map]
  have hAn : ∀ k ∈ A', k.node ∈ A := by
    intro k hk; rw [← hA']; exact List.mem_map.mpr ⟨k, hk, rfl⟩
  -- the blocks before the heading
  have invA := serTopLoop_inv (cx := cx) A' [] (trailingStart (A ++ h :: B)) s3 (by omega)
    (fun k hk => hact k (hAmem k hk))
    (fun k hk => ⟨hwp _ (hmem k (hAmem k hk)), hbl _ (hmem k (hAmem k hk)), hd _ (hmem k (hAmem k hk))⟩)
    (by simp) hinv
  have goA := (serTopLoop_closed (cx := cx) (name := []) (Q := fun _ => True) ⟨fun _ _ _ => trivial, fun _ _ => trivial⟩
    (fun k hk => hok k (hAmem k hk)) (fun k hk => hd _ (hmem k (hAmem k hk)))
    (fun k hk => hfree [] k (hAmem k hk)) (fun k hk => hb k (hAmem k hk)) (fun _ _ _ _ _ => trivial)
    none (trailingStart (A ++ h :: B)) s3 trivial).2
  rw [hA', List.nil_append, List.getLast?_nil] at invA
  rw [hsplit, serTopLoop_append cx _ _ _ _ _ goA]
  have hlast : (A'.getLast?.map (·.node)).or none = A.getLast? := by
    rw [Option.or_none, ← hA', List.getLast?_map]
  rw [hlast, hAl]
  have hm0 : (trailingStart (A ++ h :: B) - A.length == 0) = false := by
    simp only [beq_eq_false_iff_ne]; omega
  have noteA : ∀ name q fs line, .mk (.footnoteDefinition name) q fs ∈ A ++ h :: B →
      FirstReference (A ++ h :: B) name line →
      Note cx name (fun f => VisIn (noteText cx fs) f.content ∧ f.referenceLine = line)
        (serTopLoop cx none (trailingStart (A ++ h :: B)) A' s3).1 := fun name q fs line hm hr =>
    serTopLoop_note (fun k hk => hok k (hAmem k hk)) (fun k hk => hfree name k (hAmem k hk))
      (fun k hk => hb k (hAmem k hk)) _ _ _ (.inr (hpend name q fs line hm hr))
  have pendA : ∀ name q fs line, .mk (.footnoteDefinition name) q fs ∈ A ++ h :: B →
      FirstReference (A ++ h :: B) name line → h.pos.startLine ≤ line →
      PendingNote name (fun f => VisIn (noteText cx fs) f.content ∧ f.referenceLine = line)
        (serTopLoop cx none (trailingStart (A ++ h :: B)) A' s3).1 := fun name q fs line hm hr hl =>
    (serTopLoop_closed (cx := cx) closed_pending (fun k hk => hok k (hAmem k hk))
      (fun k hk => hd _ (hmem k (hAmem k hk)))
      (fun k hk => hfree name k (hAmem k hk)) (fun k hk => hb k (hAmem k hk))
      (fun k hk hkd st hp => PendingNote.keep hp _ fun f hf => by
        have := hs _ (hAn k hk) hkd
        rw [hf.2, dueBefore]
        simp only [Bool.and_eq_false_iff, decide_eq_false_iff_not]
        omega) none (trailingStart (A ++ h :: B)) s3 (hpend name q fs line hm hr)).1
  generalize (serTopLoop cx none (trailingStart (A ++ h :: B)) A' s3).1 = sA at *
  -- the heading
  obtain ⟨c1, c2, c3⟩ := serTopChild_inv (cx := cx) (nb := nextIsBracket B) (hwp h (by simp)) (hbl h (by simp))
    (hd h (by simp)) (fun m hm => hd m (by simp [hm])) invA
  have c3 := c3 hfd
  rw [if_pos ⟨hA, hh⟩] at c3
  have hkid : (⟨h, ser cx h (nextIsBracket B)⟩ : Kid) ∈ serKids cx (A ++ h :: B) := by rw [hsplit]; simp
  have pendH : ∀ name q fs line, .mk (.footnoteDefinition name) q fs ∈ A ++ h :: B →
      FirstReference (A ++ h :: B) name line → h.pos.startLine ≤ line →
      PendingNote name (fun f => VisIn (noteText cx fs) f.content ∧ f.referenceLine = line)
        (serTopChild cx A.getLast? false ⟨h, ser cx h (nextIsBracket B)⟩ sA).1 := fun name q fs line hm hr hl =>
    (serTopChild_closed (cx := cx) closed_pending (hok _ hkid) (hd h (by simp))
      (hfree name _ hkid) (hb _ hkid)
      (fun hkd st hp => PendingNote.keep hp _ fun f hf => by
        rw [hf.2, dueBefore]
        simp only [Bool.and_eq_false_iff, decide_eq_false_iff_not]
        omega) _ _ (pendA name q fs line hm hr hl)).1
  have eH : serTopLoop cx A.getLast? (trailingStart (A ++ h :: B) - A.length)
      (⟨h, ser cx h (nextIsBracket B)⟩ :: serKids cx B) sA =
      serTopLoop cx (some h) (trailingStart (A ++ h :: B) - A.length - 1) (serKids cx B)
        (serTopChild cx A.getLast? false ⟨h, ser cx h (nextIsBracket B)⟩ sA).1 := by
    rw [serTopLoop, hm0, if_neg (by rw [c1]; simp)]
  rw [eH]
  generalize (serTopChild cx A.getLast? false ⟨h, ser cx h (nextIsBracket B)⟩ sA).1 = sH at *
  -- the blocks after it
  have goB := (serTopLoop_closed (cx := cx) (name := []) (Q := fun _ => True) ⟨fun _ _ _ => trivial, fun _ _ => trivial⟩
    (fun k hk => hok k (hBmem k hk)) (fun k hk => hd _ (hmem k (hBmem k hk)))
    (fun k hk => hfree [] k (hBmem k hk)) (fun k hk => hb k (hBmem k hk)) (fun _ _ _ _ _ => trivial)
    (some h) (trailingStart (A ++ h :: B) - A.length - 1) sH trivial).2
  rw [if_neg (by rw [goB]; simp)]
  have growB := serTopLoop_grows (fun k hk => hok k (hBmem k hk)) (fun k hk => hb k (hBmem k hk)) (some h)
    (trailingStart (A ++ h :: B) - A.length - 1) sH
  have afterB : ∀ name q fs line, .mk (.footnoteDefinition name) q fs ∈ A ++ h :: B →
      FirstReference (A ++ h :: B) name line → h.pos.startLine ≤ line →
      NoteAfter cx sH.output name (fun f => VisIn (noteText cx fs) f.content ∧ f.referenceLine = line)
        (serTopLoop cx (some h) (trailingStart (A ++ h :: B) - A.length - 1) (serKids cx B) sH).1 :=
    fun name q fs line hm hr hl =>
    (serTopLoop_closed (cx := cx) closed_after (fun k hk => hok k (hBmem k hk))
      (fun k hk => hd _ (hmem k (hBmem k hk)))
      (fun k hk => hfree name k (hBmem k hk)) (fun k hk => hb k (hBmem k hk))
      (fun k hk hkd st hp => NoteAfter.flush hp _ fun f hf => hf.2) (some h) _ sH
      (.inr ⟨List.prefix_rfl, pendH name q fs line hm hr hl⟩)).1
  generalize (serTopLoop cx (some h) (trailingStart (A ++ h :: B) - A.length - 1) (serKids cx B) sH).1 = sB at *
  have growE := (grows_flushAll cx none sB).trans
    (outputTrailing_grows ((A ++ h :: B).drop (trailingStart (A ++ h :: B))) (flushAll cx none sB))
  obtain ⟨t, ht⟩ := growB.out.trans growE.out
  refine ⟨(flushAll cx (some h.pos.startLine) sA).output, t, by rw [← ht, c3], ?_⟩
  intro name q fs line hm hr
  refine ⟨fun h0 hl => ?_, fun hl => ?_⟩
  · rcases noteA name q fs line hm hr with ⟨f, e1, e2, e3⟩ | hp
    · exact ⟨f, e1, e2.1, e3.trans (grows_flushAll cx _ sA).out.isInfix⟩
    · obtain ⟨f, rest, e1, e2, e3, e4⟩ := PendingNote.due (cx := cx) hp (some h.pos.startLine) fun f hf => by
        rw [hf.2, dueBefore]
        simp [h0, hl]
      exact ⟨f, e1, e2.1, by rw [e3]; exact e4.trans (List.suffix_append _ _).isInfix⟩
  · have := NoteAfter.flush (afterB name q fs line hm hr hl) none fun f hf => hf.2
    rcases this with ⟨f, rest, e1, e2, e3, e4⟩ | ⟨_, hp⟩
    · obtain ⟨u, hu⟩ := (outputTrailing_grows ((A ++ h :: B).drop (trailingStart (A ++ h :: B)))
        (flushAll cx none sB)).out
      rw [← hu, e3, List.append_assoc] at ht
      have ht := List.append_cancel_left ht
      exact ⟨f, e1, e2.1, by rw [ht]; exact e4.trans (List.prefix_append _ _).isInfix⟩
    · obtain ⟨_, h5, _⟩ := hp
      rw [(flushAll_none_pending cx sB).2.2] at h5
      simp at h5

end Hongdown.Model
