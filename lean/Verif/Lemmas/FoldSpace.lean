import Verif.Lemmas.LineEndTree
import Verif.Spec.FoldSpace
import Verif.Spec.Heading

/-!
# Texts that differ in letter case end alike
-/

namespace Hongdown
open Model Spec

variable {f : Char → List Char}

theorem fold_newline (hf : FoldsSpace f) {a b : List Char} (h : foldCase f a = foldCase f b) (hb : '\n' ∉ b) : '\n' ∉ a := by
  intro ha
  have h1 : '\n' ∈ foldCase f a := List.mem_flatMap.mpr ⟨'\n', ha, by rw [hf.keeps _ (by decide)]; simp⟩
  rw [h] at h1
  obtain ⟨c, hc, hm⟩ := List.mem_flatMap.mp h1
  cases hw : isWs c with
  | true =>
    rw [hf.keeps c hw, List.mem_singleton] at hm
    exact hb (hm ▸ hc)
  | false => exact absurd (hf.visible c hw _ hm) (by decide)

theorem fold_endsVisible (hf : FoldsSpace f) {a b : List Char} (h : foldCase f a = foldCase f b) (hb : EndsVisible b) :
    EndsVisible a := by
  obtain ⟨u, c, rfl, hc⟩ := hb
  have e : ∀ (v : List Char) (d : Char), foldCase f (v ++ [d]) = foldCase f v ++ f d := by simp [foldCase]
  have last : ∀ (v : List Char) (d : Char), (foldCase f (v ++ [d])).getLast? = (f d).getLast? := by
    intro v d
    rw [e, List.getLast?_append, List.getLast?_eq_some_getLast (hf.some d)]
    rfl
  have h1 := last u c
  rw [← h] at h1
  rcases List.eq_nil_or_concat a with rfl | ⟨v, d, rfl⟩
  · rw [List.getLast?_eq_some_getLast (hf.some c)] at h1
    cases h1
  · rw [List.concat_eq_append] at h1 ⊢
    refine ⟨v, d, rfl, ?_⟩
    cases hd : isWs d with
    | false => rfl
    | true =>
      rw [last, hf.keeps d hd, List.getLast?_eq_some_getLast (hf.some c)] at h1
      have := hf.visible c hc _ (List.getLast_mem (hf.some c))
      rw [← Option.some.inj h1] at this
      rw [show ([d] : List Char).getLast (by simp) = d from rfl, hd] at this
      cases this

end Hongdown
