import Verif.Spec.Names
import Verif.Lemmas.Frame

/-!
# Where references come from
-/

namespace Hongdown
open Model Spec

theorem formatReference_label (bang text label url title : List Char) :
    (formatReference bang text label url title).2 =
      [⟨(stripPrefix? [collapsedMark] label).getD label, url, title⟩] := by
  unfold formatReference
  split
  · simp [stripPrefix?, collapsedMark]
  · rename_i h
    have : (stripPrefix? [collapsedMark] label).getD label = label := by
      cases label with
      | nil => rfl
      | cons c cs =>
        rw [stripPrefix?]
        split
        · rename_i hc
          exact absurd (by rw [← hc]; rfl) (h cs)
        · rfl
    rw [this]
    split <;> rfl

theorem preorderList_mem {cs : List Node} {n m : Node} (h : n ∈ cs) (hm : m ∈ preorder n) : m ∈ preorderList cs := by
  induction cs with
  | nil => simp at h
  | cons c cs ih =>
    rw [preorderList, List.mem_append]
    rcases List.mem_cons.mp h with rfl | h
    · exact .inl hm
    · exact .inr (ih h)

theorem preorder_children {n m : Node} (h : m ∈ preorderList n.children) : m ∈ preorder n := by
  obtain ⟨v, p, cs⟩ := n
  rw [preorder]
  exact List.mem_cons_of_mem _ h

theorem names_label {cx : Cx} {v : NodeValue} {url title : List Char} {p : Pos} {cs : List Node} {l : List Char}
    (hv : v = .link url title ∨ v = .image url title) (h : registeredLabel cx p = some l) :
    (⟨l, url, title⟩ : Ref) ∈ namesOf cx (.mk v p cs) := by
  rcases hv with rfl | rfl <;> simp [namesOf, Node.value, Node.pos, h]

theorem names_text {cx : Cx} {url title : List Char} {p : Pos} {cs : List Node} {s : List Char}
    (h : registeredLabel cx p = none) (hu : isExternalUrl url = true)
    (hs : s = (collectInlines cx cs).1 ∨ s = (collectTexts cx cs).1 ∨ s = rawTexts cs) :
    (⟨softToSpace s, url, title⟩ : Ref) ∈ namesOf cx (.mk (.link url title) p cs) := by
  rcases hs with rfl | rfl | rfl <;> simp [namesOf, Node.value, Node.pos, Node.children, h, hu]

/-- The reference comes from a node of the tree. -/
def NamedAt (cx : Cx) (n : Node) (r : Ref) : Prop := ∃ m ∈ preorder n, r ∈ namesOf cx m

theorem namedAt_of {cx : Cx} {v : NodeValue} {p : Pos} {cs : List Node} {r : Ref} (h : r ∈ namedRefs cx cs) :
    NamedAt cx (.mk v p cs) r := by
  obtain ⟨m, hm, hr⟩ := List.mem_flatMap.mp h
  exact ⟨m, preorder_children hm, hr⟩

theorem names_at {cx : Cx} {n : Node} {r : Ref} (h : r ∈ namesOf cx n) : NamedAt cx n r := by
  obtain ⟨v, p, cs⟩ := n
  exact ⟨_, by rw [preorder]; exact List.mem_cons_self .., h⟩

theorem namedIn_of {cx : Cx} {cs : List Node} {n : Node} {r : Ref} (h : NamedAt cx n r) (hn : n ∈ cs) :
    r ∈ namedRefs cx cs := by
  obtain ⟨m, hm, hr⟩ := h
  exact List.mem_flatMap.mpr ⟨m, preorderList_mem hn hm, hr⟩

theorem namedIn_cons {cx : Cx} {n : Node} {ns : List Node} {r : Ref} :
    r ∈ namedRefs cx (n :: ns) ↔ NamedAt cx n r ∨ r ∈ namedRefs cx ns := by
  simp only [namedRefs, NamedAt, preorderList, List.flatMap_append, List.mem_append, List.mem_flatMap]

theorem label_named {cx : Cx} {v : NodeValue} {p : Pos} {cs : List Node} {url title text label bang : List Char} {r : Ref}
    (hv : v = .link url title ∨ v = .image url title) (h : referenceStyleInfo cx p = some (text, label))
    (hr : r ∈ (formatReference bang text label url title).2) : NamedAt cx (.mk v p cs) r := by
  rw [formatReference_label, List.mem_singleton] at hr
  subst hr
  exact names_at (names_label hv (by rw [registeredLabel, h]; rfl))

theorem label_named' {cx : Cx} {v : NodeValue} {p : Pos} {cs : List Node} {url title text label : List Char}
    (hv : v = .link url title ∨ v = .image url title) (h : referenceStyleInfo cx p = some (text, label)) :
    NamedAt cx (.mk v p cs) ⟨(stripPrefix? [collapsedMark] label).getD label, url, title⟩ :=
  names_at (names_label hv (by rw [registeredLabel, h]; rfl))

theorem text_named {cx : Cx} {p : Pos} {cs : List Node} {url title s : List Char} (h : referenceStyleInfo cx p = none)
    (hu : isExternalUrl url = true) (hs : s = (collectInlines cx cs).1 ∨ s = (collectTexts cx cs).1 ∨ s = rawTexts cs) :
    NamedAt cx (.mk (.link url title) p cs) ⟨softToSpace s, url, title⟩ :=
  names_at (names_text (by rw [registeredLabel, h]; rfl) hu hs)

mutual
theorem collectText_named (cx : Cx) : ∀ (n : Node) (r : Ref), r ∈ (collectText cx n).2 → NamedAt cx n r
  | .mk v p cs, r, hr => by
    have ih := collectTexts_named cx cs r
    cases v <;> simp only [collectText] at hr <;> try exact namedAt_of (ih hr)
    all_goals try (simp at hr; done)
    case link url title =>
      cases h : referenceStyleInfo cx p with
      | some tl => rw [h] at hr; exact label_named (.inl rfl) h hr
      | none =>
        rw [h] at hr
        simp only [] at hr
        split at hr
        · rename_i hu
          simp only [formatExternalLink, List.mem_singleton] at hr
          subst hr
          exact text_named h hu (.inr (.inr rfl))
        · simp at hr

theorem collectTexts_named (cx : Cx) : ∀ (ns : List Node) (r : Ref), r ∈ (collectTexts cx ns).2 → r ∈ namedRefs cx ns
  | [], r, hr => by simp [collectTexts] at hr
  | n :: ns, r, hr => by
    rw [collectTexts] at hr
    simp only [Inl.append, List.mem_append] at hr
    rw [namedIn_cons]
    exact hr.imp (collectText_named cx n r) (collectTexts_named cx ns r)
end

mutual
theorem collectInline_named (cx : Cx) (nb : Bool) : ∀ (n : Node) (r : Ref), r ∈ (collectInline cx nb n).2 → NamedAt cx n r
  | .mk v p cs, r, hr => by
    have ih := collectInlines_named cx cs r
    cases v <;> simp only [collectInline] at hr <;> try exact namedAt_of (ih hr)
    all_goals try (simp at hr; done)
    case link url title =>
      cases h : referenceStyleInfo cx p with
      | some tl =>
        rw [h] at hr
        simp only [] at hr
        split at hr
        · rcases List.mem_append.mp hr with hr | hr
          · exact namedAt_of (ih hr)
          · rw [List.mem_singleton] at hr
            subst hr
            exact label_named' (.inl rfl) h
        · exact label_named (.inl rfl) h hr
      | none =>
        rw [h] at hr
        simp only [] at hr
        split at hr
        · exact namedAt_of (ih hr)
        · split at hr
          · simp at hr
          · split at hr
            · rename_i hu
              rcases List.mem_append.mp hr with hr | hr
              · exact namedAt_of (ih hr)
              · simp only [formatExternalLink, List.mem_singleton] at hr
                subst hr
                exact text_named h hu (.inl rfl)
            · exact namedAt_of (ih hr)
    case image url title =>
      cases h : referenceStyleInfo cx p with
      | some tl => rw [h] at hr; exact label_named (.inr rfl) h hr
      | none => rw [h] at hr; exact namedAt_of (ih hr)

theorem collectInlines_named (cx : Cx) : ∀ (ns : List Node) (r : Ref), r ∈ (collectInlines cx ns).2 → r ∈ namedRefs cx ns
  | [], r, hr => by simp [collectInlines] at hr
  | n :: ns, r, hr => by
    rw [collectInlines] at hr
    simp only [Inl.append, List.mem_append] at hr
    rw [namedIn_cons]
    exact hr.imp (collectInline_named cx _ n r) (collectInlines_named cx ns r)
end

mutual
/-- What serializing a block may define comes from one of its nodes. -/
theorem uses_named (cx : Cx) : ∀ (n : Node) (r : Ref), r ∈ (uses cx n).may → NamedAt cx n r
  | .mk v p cs, r, hr => by
    have ih := usesList_named cx cs r
    have it := collectTexts_named cx cs r
    have ii := collectInlines_named cx cs r
    cases v <;> simp only [uses] at hr <;> try exact namedAt_of (ih hr)
    all_goals try (simp at hr; done)
    case heading => exact namedAt_of (it hr)
    case paragraph =>
      split at hr
      · exact namedAt_of (ii hr)
      · exact namedAt_of (ii hr)
    case table =>
      simp only [Uses.of_may, List.mem_flatMap] at hr
      obtain ⟨row, hrow, cell, hcell, hr⟩ := hr
      obtain ⟨m, hm, h⟩ := List.mem_flatMap.mp (collectInlines_named cx cell.children r hr)
      exact ⟨m, preorder_children (preorderList_mem hrow (preorder_children
        (preorderList_mem hcell (preorder_children hm)))), h⟩
    case link url title =>
      cases h : referenceStyleInfo cx p with
      | some tl =>
        rw [h] at hr
        simp only [] at hr
        split at hr
        · rcases List.mem_append.mp hr with hr | hr
          · exact namedAt_of (ih hr)
          · rw [Uses.of_may, List.mem_singleton] at hr
            subst hr
            exact label_named' (.inl rfl) h
        · exact label_named (.inl rfl) h hr
      | none =>
        rw [h] at hr
        simp only [] at hr
        split at hr
        · exact namedAt_of (ih hr)
        · split at hr
          · simp at hr
          · rcases List.mem_append.mp hr with hr | hr
            · exact namedAt_of (it hr)
            · split at hr
              · rename_i hu
                rw [Uses.of_may, List.mem_singleton] at hr
                subst hr
                exact text_named h hu (.inr (.inl rfl))
              · simp at hr
    case image url title =>
      rcases List.mem_append.mp hr with hr | hr
      · exact namedAt_of (it hr)
      · cases h : referenceStyleInfo cx p with
        | some tl => rw [h] at hr; exact label_named (.inr rfl) h hr
        | none => rw [h] at hr; simp at hr
    case footnoteDefinition =>
      rcases List.mem_append.mp hr with hr | hr
      · split at hr
        · exact namedAt_of (ih hr)
        · exact namedAt_of (ii hr)
      · simp at hr

theorem usesList_named (cx : Cx) : ∀ (ns : List Node) (r : Ref), r ∈ (usesList cx ns).may → r ∈ namedRefs cx ns
  | [], r, hr => by simp [usesList] at hr
  | n :: ns, r, hr => by
    rw [usesList, Uses.append_may, List.mem_append] at hr
    rw [namedIn_cons]
    exact hr.imp (uses_named cx n r) (usesList_named cx ns r)
end

end Hongdown
