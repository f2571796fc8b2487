import Verif.Lemmas.Layout

set_option linter.unusedSimpArgs false

/-!
# The line ranges in which warnings are suppressed
-/

namespace Hongdown
open Model Spec

theorem inRanges_iff (l : Nat) : ∀ cs : List Node, inRanges l (disabledRanges cs) = true ↔
    ∃ X d Y r, cs = X ++ d :: Y ∧ disabledRange d Y = some r ∧ r.1 ≤ l ∧ l ≤ r.2
  | [] => by simp [disabledRanges, inRanges]
  | c :: cs => by
    have ih := inRanges_iff l cs
    rw [disabledRanges, inRanges, List.any_append, Bool.or_eq_true]
    rw [inRanges] at ih
    rw [ih]
    constructor
    · rintro (h | ⟨X, d, Y, r, h, h'⟩)
      · cases hr : disabledRange c cs with
        | none => rw [hr] at h; simp at h
        | some r =>
          rw [hr] at h
          exact ⟨[], c, cs, r, rfl, hr, by simpa using h⟩
      · exact ⟨c :: X, d, Y, r, by rw [h]; rfl, h'⟩
    · rintro ⟨X, d, Y, r, h, hr, h'⟩
      cases X with
      | nil =>
        rw [List.nil_append, List.cons.injEq] at h
        rw [h.1, h.2, hr]
        exact .inl (by simpa using h')
      | cons x X =>
        rw [List.cons_append, List.cons.injEq] at h
        exact .inr ⟨X, d, Y, r, h.2, hr, h'⟩

theorem switch_not_footnote {d : Node} {x : Directive} (h : d.directive = some x) :
    d.isFootnoteDefinition = false := (directive_heading h).2.1

theorem lineBefore_spec {cs A B : List Node} {n : Node} (h : InOrder cs) {X Y : List Node} {d : Node}
    (e : cs = X ++ d :: (Y ++ n :: B)) (hn : n.isFootnoteDefinition = false)
    (f : Node → Bool) (hf : ∀ m, f m = true → m.isFootnoteDefinition = false) {l : Nat}
    (h1 : n.pos.startLine ≤ l) (h2 : l ≤ n.pos.endLine) :
    l ≤ lineBefore f (Y ++ n :: B) ↔ (∀ m ∈ Y, f m = false) ∧ f n = false := by
  have hmem : n ∈ cs := by rw [e]; simp
  have hnp := h.ok n hmem
  rw [lineBefore]
  cases hc : (Y ++ n :: B).find? f with
  | none =>
    simp only []
    rw [List.find?_eq_none] at hc
    refine ⟨fun _ => ⟨fun m hm => by simpa using hc m (by simp [hm]), by simpa using hc n (by simp)⟩, fun _ => ?_⟩
    exact Nat.le_trans h2 hnp.2.2
  | some m =>
    simp only []
    obtain ⟨hfm, P, Q, hPQ, hP⟩ := List.find?_eq_some_iff_append.mp hc
    have hmf := hf m hfm
    constructor
    · intro hl
      rcases List.append_eq_append_iff.mp hPQ with ⟨C, c1, c2⟩ | ⟨C, c1, c2⟩
      · -- the found node is `n` or after it
        cases C with
        | nil =>
          rw [List.nil_append, List.cons.injEq] at c2
          obtain ⟨rfl, -⟩ := c2
          omega
        | cons c C =>
          rw [List.cons_append, List.cons.injEq] at c2
          obtain ⟨rfl, -⟩ := c2
          refine ⟨fun x hx => ?_, ?_⟩
          · simpa using hP x (by rw [c1]; simp [hx])
          · simpa using hP n (by rw [c1]; simp)
      · cases C with
        | nil =>
          rw [List.nil_append, List.cons.injEq] at c2
          obtain ⟨rfl, -⟩ := c2
          omega
        | cons c C =>
          rw [List.cons_append, List.cons.injEq] at c2
          obtain ⟨rfl, -⟩ := c2
          exfalso
          have := h.order (X ++ d :: P) m C n B (by rw [e, c1]; simp) hmf hn
          have := (h.ok m (by rw [e, c1]; simp)).2.1
          omega
    · rintro ⟨g1, g2⟩
      rcases List.append_eq_append_iff.mp hPQ with ⟨C, c1, c2⟩ | ⟨C, c1, c2⟩
      · cases C with
        | nil =>
          rw [List.nil_append, List.cons.injEq] at c2
          obtain ⟨rfl, -⟩ := c2
          rw [g2] at hfm; cases hfm
        | cons c C =>
          rw [List.cons_append, List.cons.injEq] at c2
          obtain ⟨rfl, c2⟩ := c2
          have := h.order (X ++ d :: Y) n C m Q (by rw [e, c2]; simp) hn hmf
          omega
      · cases C with
        | nil =>
          rw [List.nil_append, List.cons.injEq] at c2
          obtain ⟨rfl, -⟩ := c2
          rw [g2] at hfm; cases hfm
        | cons c C =>
          rw [List.cons_append, List.cons.injEq] at c2
          obtain ⟨rfl, -⟩ := c2
          have := g1 m (by rw [c1]; simp)
          rw [this] at hfm; cases hfm

/-- A line of a block is in the ranges exactly if the block is covered by a directive. -/
theorem ranges_covered {A B : List Node} {n : Node} (h : InOrder (A ++ n :: B))
    (hn : isTextBlock n = true) {l : Nat} (h1 : n.pos.startLine ≤ l) (h2 : l ≤ n.pos.endLine) :
    inRanges l (disabledRanges (A ++ n :: B)) = true ↔
      Covered A n ∨ ∃ d ∈ A, d.directive = some .disableFile := by
  have hn2 : n.directive = none ∧ n.isFootnoteDefinition = false := by
    simpa [isTextBlock] using hn
  obtain ⟨hnd, hnf⟩ := hn2
  have heading_nf : ∀ m : Node, m.headingLevel.any (· ≤ 2) = true → m.isFootnoteDefinition = false := by
    intro m hm
    cases hf : m.isFootnoteDefinition with
    | false => rfl
    | true => rw [(footnote_facts hf).2.1] at hm; cases hm
  have enable_nf : ∀ m : Node, decide (m.directive = some .enable) = true → m.isFootnoteDefinition = false := by
    intro m hm
    exact switch_not_footnote (of_decide_eq_true hm)
  rw [inRanges_iff]
  constructor
  · rintro ⟨X, d, Y, r, he, hr, hl1, hl2⟩
    -- where is `d`?
    rcases List.append_eq_append_iff.mp he with ⟨C, c1, c2⟩ | ⟨C, c1, c2⟩
    · -- `d` is `n` or after `n`
      exfalso
      cases C with
      | nil =>
        rw [List.nil_append, List.cons.injEq] at c2
        obtain ⟨rfl, rfl⟩ := c2
        rw [disabledRange.eq_def, hnd] at hr
        cases hr
      | cons c C =>
        rw [List.cons_append, List.cons.injEq] at c2
        obtain ⟨rfl, rfl⟩ := c2
        rw [disabledRange.eq_def] at hr
        have after : ∀ x : Directive, d.directive = some x → n.pos.endLine < d.pos.endLine + 1 := by
          intro x hx
          have := h.order A n C d Y (by simp) hnf (switch_not_footnote hx)
          have := (h.ok d (by simp)).2.1
          omega
        cases hd : d.directive with
        | none => rw [hd] at hr; cases hr
        | some x =>
          have := after x hd
          rw [hd] at hr
          cases x with
          | disableFile => simp only [Option.some.injEq] at hr; subst hr; simp only at hl1; omega
          | disableNextSection => simp only [Option.some.injEq] at hr; subst hr; simp only at hl1; omega
          | disable => simp only [Option.some.injEq] at hr; subst hr; simp only at hl1; omega
          | enable => cases hr
          | properNouns _ => cases hr
          | commonNouns _ => cases hr
          | disableNextLine =>
            cases Y with
            | nil => cases hr
            | cons m Y =>
              simp only at hr
              split at hr
              · cases hr
              · simp only [Option.some.injEq] at hr
                subst hr
                simp only at hl1 hl2
                cases hmf : m.isFootnoteDefinition with
                | true =>
                  have := h.apart m (by simp) n (by simp) hmf hnf
                  omega
                | false =>
                  have := h.order A n (C ++ [d]) m Y (by simp) hnf hmf
                  omega
    · -- `d` is before `n`
      cases C with
      | nil =>
        exfalso
        rw [List.nil_append, List.cons.injEq] at c2
        obtain ⟨rfl, rfl⟩ := c2
        rw [disabledRange.eq_def, hnd] at hr
        cases hr
      | cons c C =>
        rw [List.cons_append, List.cons.injEq] at c2
        obtain ⟨rfl, rfl⟩ := c2
        have e : A ++ n :: B = X ++ d :: (C ++ n :: B) := by rw [c1]; simp
        rw [disabledRange.eq_def] at hr
        cases hd : d.directive with
        | none => rw [hd] at hr; cases hr
        | some x =>
          rw [hd] at hr
          cases x with
          | disableFile => exact .inr ⟨d, by rw [c1]; simp, hd⟩
          | disableNextSection =>
            simp only [Option.some.injEq] at hr; subst hr
            have := (lineBefore_spec (A := A) h e hnf _ heading_nf h1 h2).mp hl2
            exact .inl (.nextSection X d C c1 hd this.1 this.2)
          | disable =>
            simp only [Option.some.injEq] at hr; subst hr
            have := (lineBefore_spec (A := A) h e hnf _ enable_nf h1 h2).mp hl2
            exact .inl (.disable X d C c1 hd (fun m hm => by simpa using this.1 m hm))
          | enable => cases hr
          | properNouns _ => cases hr
          | commonNouns _ => cases hr
          | disableNextLine =>
            cases C with
            | nil => exact .inl (.nextLine X d c1 hd)
            | cons m C =>
              exfalso
              simp only [List.cons_append] at hr
              split at hr
              · cases hr
              · simp only [Option.some.injEq] at hr
                subst hr
                simp only at hl1 hl2
                cases hmf : m.isFootnoteDefinition with
                | true =>
                  have := h.apart m (by rw [c1]; simp) n (by simp) hmf hnf
                  omega
                | false =>
                  have := h.order (X ++ [d]) m C n B (by rw [e]; simp) hmf hnf
                  omega
  · have before : ∀ X d C, A = X ++ d :: C → ∀ x : Directive, d.directive = some x →
        d.pos.endLine + 1 ≤ l := by
      intro X d C c1 x hx
      have := h.order X d C n B (by rw [c1]; simp) (switch_not_footnote hx) hnf
      omega
    rintro (hc | ⟨d, hd, hf⟩)
    · cases hc with
      | disable X d C c1 hd hB =>
        have e : A ++ n :: B = X ++ d :: (C ++ n :: B) := by rw [c1]; simp
        refine ⟨X, d, C ++ n :: B, (d.pos.endLine + 1, lineBefore (fun m => m.directive = some .enable) (C ++ n :: B)),
          e, by rw [disabledRange.eq_def, hd], before X d C c1 _ hd, ?_⟩
        refine (lineBefore_spec (A := A) h e hnf _ enable_nf h1 h2).mpr ⟨fun m hm => by simpa using hB m hm, ?_⟩
        rw [hnd]; rfl
      | nextLine X d c1 hd =>
        refine ⟨X, d, n :: B, (n.pos.startLine, n.pos.endLine), by rw [c1]; simp, ?_, h1, h2⟩
        rw [disabledRange.eq_def, hd]
        simp [hnd]
      | nextSection X d C c1 hd hB hb =>
        have e : A ++ n :: B = X ++ d :: (C ++ n :: B) := by rw [c1]; simp
        exact ⟨X, d, C ++ n :: B, (d.pos.endLine + 1, lineBefore (fun m => m.headingLevel.any (· ≤ 2)) (C ++ n :: B)),
          e, by rw [disabledRange.eq_def, hd], before X d C c1 _ hd,
          (lineBefore_spec (A := A) h e hnf _ heading_nf h1 h2).mpr ⟨hB, hb⟩⟩
    · obtain ⟨X, C, c1⟩ := List.append_of_mem hd
      refine ⟨X, d, C ++ n :: B, (d.pos.endLine + 1, usizeMax), by rw [c1]; simp, by rw [disabledRange.eq_def, hf], before X d C c1 _ hf, ?_⟩
      exact Nat.le_trans h2 (h.ok n (by simp)).2.2

end Hongdown
