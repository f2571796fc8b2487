import Verif.Lemmas.Unused

/-!
# Lemmas for C99: whole documents
-/

namespace Hongdown
open Model Spec

variable {cx : Cx} {o : Options} {V : NodeValue → Prop}

/-- No footnote is waiting unless there are footnotes. -/
def NotesFrom (V : NodeValue → Prop) (st : St) : Prop := (∃ n, V (.footnoteDefinition n)) ∨ st.footnotes.pending = []

mutual
theorem uses_noNotes (cx : Cx) (hn : ∀ n, ¬ V (.footnoteDefinition n)) : ∀ (n : Node), (∀ v ∈ kinds n, V v) → (uses cx n).fns = []
  | .mk v p cs, h => by
    have hv : V v := h v (by simp [kinds])
    have hc := usesList_noNotes cx hn cs (fun w hw => h w (by simp [kinds, hw]))
    cases v <;> simp only [uses, usesOf, Uses.of_fns, Uses.none_fns, hc]
    case footnoteDefinition name => exact absurd hv (hn name)
    case paragraph => split <;> rfl
    case link url title =>
      split
      · split
        · simp [hc]
        · rfl
      · split
        · exact hc
        · split
          · rfl
          · split <;> simp
    case image url title => split <;> simp

theorem usesList_noNotes (cx : Cx) (hn : ∀ n, ¬ V (.footnoteDefinition n)) : ∀ (ns : List Node), (∀ v ∈ kindsList ns, V v) →
    (usesList cx ns).fns = []
  | [], _ => by simp [usesList]
  | n :: ns, h => by
    rw [usesList, Uses.append_fns, uses_noNotes cx hn n (fun v hv => h v (by simp [kindsList, hv])),
      usesList_noNotes cx hn ns (fun v hv => h v (by simp [kindsList, hv])), List.append_nil]
end

theorem noNotes_ok {n : Node} {a b : St} (hv : ∀ v ∈ kinds n, V v) (h : OkAt (uses cx n) a b) (hn : NotesFrom V a) : NotesFrom V b := by
  by_cases hf : ∃ n, V (.footnoteDefinition n)
  · exact Or.inl hf
  · have ha := hn.resolve_left hf
    right
    obtain ⟨vs, h1, h2⟩ := h.core.fnPending
    have e := uses_noNotes cx (fun n hm => hf ⟨n, hm⟩) n hv
    have : vs = [] := by
      cases vs with
      | nil => rfl
      | cons v vs =>
        have := h1 v List.mem_cons_self
        simp [e] at this
    subst this
    have h3 : b.footnotes.pending = a.footnotes.pending := h2
    rw [h3, ha]

theorem flushAll_same (S : SameFor V cx.opts o) (before : Option Nat) {st : St} (h : NotesFrom V st) :
    flushAll { cx with opts := o } before st = flushAll cx before st := by
  unfold flushAll
  rcases h with h | h
  · have hl := S.lineWidth (Or.inr h)
    have e : writeFootnote { cx with opts := o } = writeFootnote cx := by
      funext st f
      unfold writeFootnote footnoteUnderflow footnoteText
      simp only [← hl]
    unfold flushFootnotesBefore
    rw [e]
  · unfold flushFootnotesBefore
    rw [if_pos h, if_pos h]

theorem flushAll_noNotes (before : Option Nat) {st : St} (h : NotesFrom V st) : NotesFrom V (flushAll cx before st) := by
  rcases h with h | h
  · exact Or.inl h
  · right
    unfold flushAll
    have : flushFootnotesBefore cx before st = st := by
      unfold flushFootnotesBefore
      rw [if_pos h]
    rw [this, flushFootnoteRefs_eq, flushReferences_eq]
    exact h

/-- A state in which the two runs agree. -/
def Fine (V : NodeValue → Prop) (st : St) : Prop := ListsFrom V st ∧ NotesFrom V st

theorem fine_kid {n : Node} {f : St → St} {st : St} (h : KidOk cx ⟨n, f⟩) (hv : ∀ v ∈ kinds n, V v) (hf : Fine V st) :
    Fine V (f st) := by
  refine ⟨allowed_kid hf.1 (h st), noNotes_ok hv (h st) ?_⟩
  unfold kidStart
  split
  · exact hf.2
  · exact hf.2

theorem fine_flush {st : St} (b : Option Nat) (h : Fine V st) : Fine V (flushAll cx b st) := by
  refine ⟨?_, flushAll_noNotes b h.2⟩
  obtain ⟨_, e1, _, _, _, e2, e3, _⟩ := ctx_eq (flushAll_rest cx b st).2.2.1
  exact allowed_ctx h.1 e1 e2 e3

theorem serTopBlock_same {n : Node} {f g : St → St} (e : ∀ st, ListsFrom V st → f st = g st) (h : KidOk cx ⟨n, f⟩)
    (hv : ∀ v ∈ kinds n, V v) {st : St} (hf : Fine V st) :
    serTopBlock { cx with opts := o } ⟨n, g⟩ st = serTopBlock cx ⟨n, f⟩ st ∧ Fine V (serTopBlock cx ⟨n, f⟩ st) := by
  unfold serTopBlock
  have hx : extractSource { cx with opts := o } n.pos = extractSource cx n.pos := rfl
  have hs : ∀ m, Fine V { st with skipMode := m } := fun m => hf
  simp only [hx]
  split
  · exact ⟨(e st hf.1).symm, fine_kid h hv hf⟩
  · split
    · exact ⟨(e _ (hs .none).1).symm, fine_kid h hv (hs .none)⟩
    · have h2 : Fine V (if st.skipMode = .nextBlock then { st with skipMode := .none } else st) := by
        split
        · exact hf
        · exact hf
      split
      · exact ⟨rfl, h2⟩
      · exact ⟨(e _ h2.1).symm, fine_kid h hv h2⟩

theorem serTopChild_same (S : SameFor V cx.opts o) {n : Node} {f g : St → St} (e : ∀ st, ListsFrom V st → f st = g st)
    (h : KidOk cx ⟨n, f⟩) (hv : ∀ v ∈ kinds n, V v) (prev : Option Node) (tr : Bool) {st : St} (hf : Fine V st) :
    serTopChild { cx with opts := o } prev tr ⟨n, g⟩ st = serTopChild cx prev tr ⟨n, f⟩ st ∧
      Fine V (serTopChild cx prev tr ⟨n, f⟩ st).1 := by
  have hfl : ∀ b, flushAll { cx with opts := o } b st = flushAll cx b st := fun b => flushAll_same S b hf.2
  have hff : ∀ b, Fine V (flushAll cx b st) := fun b => fine_flush b hf
  have hx : ∀ l, extractSourceFromLine { cx with opts := o } l = extractSourceFromLine cx l := fun _ => rfl
  unfold serTopChild
  simp only [hfl, hx]
  split
  · exact ⟨rfl, hf⟩
  · split
    · exact ⟨rfl, hf⟩
    · cases hd : n.directive with
      | some d =>
        simp only
        cases d with
        | disableFile =>
          refine ⟨trivial, ?_⟩
          simp only
          split
          · exact hff _
          · exact hff _
        | disableNextLine => exact ⟨trivial, hff _⟩
        | disableNextSection => exact ⟨trivial, hff _⟩
        | disable => exact ⟨trivial, hff _⟩
        | enable => exact ⟨trivial, hf⟩
        | properNouns ns => exact ⟨trivial, hf⟩
        | commonNouns ns => exact ⟨trivial, hf⟩
      | none =>
        simp only
        have hs : Fine V ((if prev.isSome ∧ (n.headingLevel = some 2 ∨ n.headingLevel = some 3) then
            flushAll cx (some n.pos.startLine) st else st).push (blockGap prev n)) := by
          split
          · exact hff _
          · exact hf
        have k := serTopBlock_same (o := o) e h hv hs
        exact ⟨by rw [k.1], k.2⟩

/-- The pairs of kids at the top level. -/
inductive TopSame (cx : Cx) (V : NodeValue → Prop) : List Kid → List Kid → Prop
  | nil : TopSame cx V [] []
  | cons {n : Node} {f g : St → St} {ks ks' : List Kid} (e : ∀ st, ListsFrom V st → f st = g st) (h : KidOk cx ⟨n, f⟩)
      (hv : ∀ v ∈ kinds n, V v) (t : TopSame cx V ks ks') : TopSame cx V (⟨n, f⟩ :: ks) (⟨n, g⟩ :: ks')

theorem serKids_top (S : SameFor V cx.opts o) : ∀ (cs : List Node), wellPlacedList cs = true → (∀ v ∈ kindsList cs, V v) →
    TopSame cx V (serKids cx cs) (serKids { cx with opts := o } cs)
  | [], _, _ => by simp only [serKids]; exact .nil
  | n :: ns, h, hk => by
    rw [wellPlacedList, Bool.and_eq_true] at h
    simp only [serKids]
    exact .cons (fun st ha => (ser_same S n _ h.1 (fun w hw => hk w (by simp [kindsList, hw])) ha).symm) (ser_ok cx n _ h.1)
      (fun w hw => hk w (by simp [kindsList, hw])) (serKids_top S ns h.2 fun w hw => hk w (by simp [kindsList, hw]))

theorem serTopLoop_same (S : SameFor V cx.opts o) {ks ks' : List Kid} (h : TopSame cx V ks ks') :
    ∀ (prev : Option Node) (main : Nat) {st : St}, Fine V st →
      serTopLoop { cx with opts := o } prev main ks' st = serTopLoop cx prev main ks st ∧
        Fine V (serTopLoop cx prev main ks st).1 := by
  induction h with
  | nil => intro prev main st hf; exact ⟨rfl, hf⟩
  | @cons n f g ks ks' e h hv t ih =>
    intro prev main st hf
    have k := serTopChild_same S e h hv prev (main == 0) hf
    rw [serTopLoop, serTopLoop, k.1]
    simp only
    split
    · exact ⟨rfl, k.2⟩
    · exact ih _ _ k.2

theorem serFootnotes_same {ks ks' : List Kid} (h : TopSame cx V ks ks') : ∀ {st : St}, Fine V st →
    serFootnoteDefinitions ks' st = serFootnoteDefinitions ks st ∧ Fine V (serFootnoteDefinitions ks st) := by
  unfold serFootnoteDefinitions
  induction h with
  | nil => intro st hf; exact ⟨rfl, hf⟩
  | @cons n f g ks ks' e h hv t ih =>
    intro st hf
    simp only [List.filter_cons]
    split
    · have := ih (fine_kid h hv hf)
      refine ⟨?_, this.2⟩
      show runKids _ (g st) = runKids _ (f st)
      rw [← e st hf.1]
      exact this.1
    · exact ih hf

theorem recordLines_fine : ∀ (ls : List (List Char × Nat)) {st : St}, Fine V st → Fine V (recordLines ls st)
  | [], _, h => h
  | _ :: ls, _, h => recordLines_fine ls (by exact h)

theorem formatDoc_same (S : SameFor V cx.opts o) (p : Pos) (cs : List Node) (hw : wellPlacedDoc cs = true)
    (hv : ∀ v ∈ kindsList cs, V v) :
    formatDoc { cx with opts := o } (.mk .document p cs) = formatDoc cx (.mk .document p cs) := by
  have hw' : wellPlacedList cs = true := by
    rw [wellPlacedDoc, Bool.and_eq_true] at hw
    exact hw.2
  have t := serKids_top S cs hw' hv
  have h0 : Fine V {} := ⟨⟨fun _ h => (by cases h), fun _ => rfl, fun h => (by cases h)⟩, Or.inr rfl⟩
  unfold formatDoc
  simp only [ser, dispatch, serDocument, serKids_nodes]
  have hu : undefinedWarnings { cx with opts := o } cs = undefinedWarnings cx cs := rfl
  rw [hu]
  have h1 : Fine V { ({} : St) with warnings := [] ++ undefinedWarnings cx cs } := h0
  have h2 := recordLines_fine (footnoteRefLinesList cs) h1
  have k := serFootnotes_same t h2
  have l := serTopLoop_same S t none (trailingStart cs) k.2
  rw [k.1, l.1]
  split
  · rfl
  · rw [flushAll_same S none l.2.2]

end Hongdown
