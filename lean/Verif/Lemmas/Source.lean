import Verif.Spec.Source
import Verif.Props.Directive
import Verif.Lemmas.Str

/-!
# Extracting source text
-/

namespace Hongdown.Model
open Spec Props

/-- Lines with their line ends. -/
def flat (ls : List (List Char)) : List Char := (ls.map (· ++ ['\n'])).flatten

theorem flat_cons (l : List Char) (ls : List (List Char)) : flat (l :: ls) = l ++ '\n' :: flat ls := by
  simp [flat]

theorem flat_append (a b : List (List Char)) : flat (a ++ b) = flat a ++ flat b := by simp [flat]

/-- Every text consists of lines and a last line. -/
theorem exists_flat (s : List Char) : ∃ ls l, s = flat ls ++ l ∧ '\n' ∉ l ∧ ∀ x ∈ ls, '\n' ∉ x := by
  induction s with
  | nil => exact ⟨[], [], rfl, by simp, by simp⟩
  | cons c s ih =>
    obtain ⟨ls, l, h, hl, hx⟩ := ih
    by_cases hc : c = '\n'
    · subst hc
      exact ⟨[] :: ls, l, by rw [flat_cons, h]; rfl, hl, by simpa using hx⟩
    · cases ls with
      | nil => exact ⟨[], c :: l, by simp [h, flat], by simp [hl, Ne.symm hc], by simp⟩
      | cons x ls =>
        refine ⟨(c :: x) :: ls, l, by simp [h, flat_cons], hl, ?_⟩
        intro y hy
        rcases List.mem_cons.1 hy with rfl | hy
        · simp [Ne.symm hc, hx x (by simp)]
        · exact hx y (by simp [hy])

theorem lineAfter_flat {ls : List (List Char)} {l : List Char} (hl : '\n' ∉ l) (h : ∀ x ∈ ls, '\n' ∉ x) :
    lineAfter (flat ls ++ l) = 1 + ls.length := by
  rw [lineAfter, List.count_append, List.count_eq_zero.2 hl]
  congr 1
  induction ls with
  | nil => rfl
  | cons x ls ih =>
    rw [flat_cons, List.count_append, List.count_eq_zero.2 (h x (by simp)), List.count_cons_self]
    have := ih (fun y hy => h y (by simp [hy]))
    simp only [List.length_cons]; omega

theorem bytesAfter_flat {ls : List (List Char)} {l : List Char} (hl : '\n' ∉ l) :
    bytesAfter (flat ls ++ l) = byteLen l := by
  rw [bytesAfter, List.reverse_append, List.takeWhile_append_of_pos]
  · have : ((flat ls).reverse.takeWhile (· ≠ '\n')) = [] := by
      cases ls.eq_nil_or_concat with
      | inl h => subst h; rfl
      | inr h => obtain ⟨a, x, rfl⟩ := h; simp [flat]
    rw [this]; simp
  · intro c hc; simp; rintro rfl; exact hl (by simpa using hc)

theorem splitOn_flat {ls : List (List Char)} (h : ∀ x ∈ ls, '\n' ∉ x) (s : List Char) :
    splitOn '\n' (flat ls ++ s) = ls ++ splitOn '\n' s := by
  induction ls with
  | nil => rfl
  | cons x ls ih =>
    rw [flat_cons, List.append_assoc, List.cons_append, splitOn_append_sep (h x (by simp)),
      ih (fun y hy => h y (by simp [hy]))]
    rfl

theorem splitOn_front {x s b : List Char} {bs : List (List Char)} (hx : '\n' ∉ x)
    (h : splitOn '\n' s = b :: bs) : splitOn '\n' (x ++ s) = (x ++ b) :: bs := by
  induction x with
  | nil => exact h
  | cons c x ih =>
    simp only [List.mem_cons, not_or] at hx
    rw [List.cons_append, splitOn, if_neg (Ne.symm hx.1), ih hx.2]
    rfl

theorem extract_one (cx : Cx) (as bs : List (List Char)) (a r b : List Char)
    (h : cx.sourceLines = as ++ (a ++ r ++ b) :: bs) :
    extractSource cx ⟨1 + as.length, byteLen a + 1, 1 + as.length, byteLen (a ++ r)⟩ = some r := by
  unfold extractSource
  rw [if_neg (by simp [h]), if_neg (by simp only; omega)]
  simp only [Nat.add_sub_cancel_left, Nat.add_sub_cancel]
  rw [if_neg (by simp [h])]
  have e := c52_exact a r b
  rw [List.append_assoc] at e
  simp [List.range', h, joinWith, e]

theorem extract_many (cx : Cx) (as ms bs : List (List Char)) (a f l b : List Char)
    (h : cx.sourceLines = as ++ (a ++ f) :: (ms ++ (l ++ b) :: bs)) :
    extractSource cx ⟨1 + as.length, byteLen a + 1, 1 + (as.length + 1 + ms.length), byteLen l⟩ =
      some (joinWith ['\n'] (f :: (ms ++ [l]))) := by
  unfold extractSource
  rw [if_neg (by simp [h]), if_neg (by simp only; omega)]
  simp only [Nat.add_sub_cancel_left, Nat.add_sub_cancel]
  rw [if_neg (by simp [h]; omega)]
  congr 2
  have hlen : as.length + 1 + ms.length + 1 - as.length = ms.length + 2 := by omega
  rw [hlen]
  have h1 : safeStrSlice (a ++ f) (byteLen a) (byteLen (a ++ f)) = some f := by
    simpa using c52_exact a f []
  have h2 : safeStrSlice (l ++ b) 0 (min (byteLen l) (byteLen (l ++ b))) = some l := by
    rw [Nat.min_eq_left (by rw [byteLen_append]; omega)]
    exact c52_exact [] l b
  apply List.ext_getElem
  · simp
  · intro i hi hi'
    simp only [List.length_map, List.length_range'] at hi
    rw [List.getElem_map, List.getElem_range', Nat.one_mul, if_neg (by omega)]
    by_cases h0 : i = 0
    · subst h0
      simp [h, h1]
    · obtain ⟨j, rfl⟩ : ∃ j, i = j + 1 := ⟨i - 1, by omega⟩
      rw [if_neg (by omega)]
      by_cases hj : j = ms.length
      · subst hj
        rw [if_pos (by omega)]
        simp [h, h2]
      · rw [if_neg (by omega)]
        have hj' : j < ms.length := by omega
        rw [h, List.getD_eq_getElem?_getD, List.getElem?_append_right (by omega)]
        rw [show as.length + (j + 1) - as.length = j + 1 by omega, List.getElem?_cons_succ,
          List.getElem?_append_left hj']
        simp [hj']

end Hongdown.Model
