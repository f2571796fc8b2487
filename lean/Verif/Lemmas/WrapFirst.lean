import Verif.Lemmas.CoreRead

/-!
# Wrapping text that begins after a marker
-/

namespace Hongdown
open Model Spec

/-- Wrapping text that begins after a marker. -/
theorem wrapFirst_plain (w : List Char → Nat) (p : List Char) (lw : Nat) {ls : List (List Char)} (h0 : ls ≠ [])
    (h : ∀ l ∈ ls, TextLine l) (ha : ∃ a, ContentReads ls a) :
    ∃ ms : List (List Char), ms ≠ [] ∧ (∀ m ∈ ms, TextLine m) ∧ lineWords ms = lineWords ls ∧ SameContent ls ms ∧ (∃ b, ContentReads ms b) ∧
      wrapTextFirstLine w (joinWith ['\x00'] ls) [] p lw = joinWith ['\n'] (layout [] p ms) ∧
      wrapTextFirstLine w (joinWith ['\x00'] ms) [] p lw = joinWith ['\n'] (layout [] p ms) := by
  have one : ∀ text : List Char, '\n' ∉ text → wrapTextFirstLine w text [] p lw = wrapSegment w text [] p lw := by
    intro text ht
    rw [wrapTextFirstLine, splitOn_of_not_mem ht]
  obtain ⟨ms, m0, mt, hw, hs, hb, e1, e2⟩ := wrapSegment_plain w [] p lw h0 h ha
  refine ⟨ms, m0, mt, hw, hs, hb, ?_, ?_⟩
  · rw [one _ (joinLines_no h (by decide) (by decide) (by decide)), e1]
  · rw [one _ (joinLines_no mt (by decide) (by decide) (by decide)), e2]

end Hongdown
