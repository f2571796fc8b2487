import Verif.Model.Punctuation
import Verif.Spec.Typography

namespace Hongdown
open Model Spec

theorem tE_nil : transformEllipsis [] = [] := rfl
theorem tE_four (rest : List Char) :
    transformEllipsis ('.' :: '.' :: '.' :: '.' :: rest) = ellipsisC :: '.' :: transformEllipsis rest := by
  rw [transformEllipsis]
theorem tE_three (rest : List Char) (h : rest.head? ≠ some '.') :
    transformEllipsis ('.' :: '.' :: '.' :: rest) = ellipsisC :: transformEllipsis rest := by
  rw [transformEllipsis]
  rintro r rfl
  simp at h
theorem tE_other (c : Char) (rest : List Char) (h : ¬ ['.', '.', '.'] <+: c :: rest) :
    transformEllipsis (c :: rest) = c :: transformEllipsis rest := by
  rw [transformEllipsis.eq_def]
  split
  · rename_i heq; rw [heq] at h; exact absurd ⟨_, rfl⟩ h
  · rename_i heq; rw [heq] at h; exact absurd ⟨_, rfl⟩ h
  · rename_i heq; injection heq with h1 h2; rw [h1, h2]
  · rename_i heq; simp at heq

/-- Induction along the steps of `transform_ellipsis`. -/
theorem tE_induction {P : List Char → Prop} (h0 : P [])
    (h4 : ∀ rest, P rest → P ('.' :: '.' :: '.' :: '.' :: rest))
    (h3 : ∀ rest, rest.head? ≠ some '.' → P rest → P ('.' :: '.' :: '.' :: rest))
    (h1 : ∀ c rest, ¬ ['.', '.', '.'] <+: c :: rest → P rest → P (c :: rest)) : ∀ s, P s := by
  intro s
  generalize hn : s.length = n
  induction n using Nat.strongRecOn generalizing s with
  | ind n ih =>
    subst hn
    cases s with
    | nil => exact h0
    | cons c rest =>
      by_cases hp : ['.', '.', '.'] <+: c :: rest
      · obtain ⟨t, ht⟩ := hp
        rw [← ht] at ih ⊢
        cases t with
        | nil => exact h3 [] (by simp) h0
        | cons d ds =>
          by_cases hd : d = '.'
          · subst hd
            exact h4 ds (ih _ (by simp; omega) ds rfl)
          · exact h3 (d :: ds) (by simpa using hd) (ih _ (by simp) (d :: ds) rfl)
      · exact h1 c rest hp (ih _ (by simp) rest rfl)

theorem tE_head (s : List Char) (h : s.head? ≠ some '.') : (transformEllipsis s).head? = s.head? := by
  cases s with
  | nil => rfl
  | cons c rest =>
    rw [tE_other]
    · rfl
    · rintro ⟨t, ht⟩
      simp at ht
      simp [← ht.1] at h

theorem tE_append (b : List Char) (hb : b.head? ≠ some '.') : ∀ a,
    transformEllipsis (a ++ b) = transformEllipsis a ++ transformEllipsis b := by
  apply tE_induction
  · rfl
  · intro rest ih; simp only [List.cons_append, tE_four, ih]
  · intro rest hr ih
    have : (rest ++ b).head? ≠ some '.' := by
      cases rest with
      | nil => exact hb
      | cons => simpa using hr
    simp only [List.cons_append, tE_three _ hr, tE_three _ this, ih]
  · intro c rest hp ih
    rw [tE_other _ _ hp, List.cons_append, tE_other, ih, List.cons_append]
    rintro ⟨t, ht⟩
    apply hp
    simp only [List.cons_append, List.nil_append, List.cons.injEq] at ht
    obtain ⟨rfl, ht⟩ := ht
    cases rest with
    | nil =>
      simp only [List.nil_append] at ht
      rw [← ht] at hb; simp at hb
    | cons d ds =>
      simp only [List.cons_append, List.cons.injEq] at ht
      obtain ⟨rfl, ht⟩ := ht
      cases ds with
      | nil =>
        simp only [List.nil_append] at ht
        rw [← ht] at hb; simp at hb
      | cons e es =>
        simp only [List.cons_append, List.cons.injEq] at ht
        obtain ⟨rfl, ht⟩ := ht
        exact ⟨es, rfl⟩

theorem tE_length_le : ∀ s, (transformEllipsis s).length ≤ s.length ∧
    ((transformEllipsis s).length = s.length → transformEllipsis s = s) := by
  apply tE_induction
  · simp [tE_nil]
  · intro rest ih; rw [tE_four]; simp only [List.length_cons]
    exact ⟨by omega, fun h => by omega⟩
  · intro rest hr ih; rw [tE_three _ hr]; simp only [List.length_cons]
    exact ⟨by omega, fun h => by omega⟩
  · intro c rest hp ih; rw [tE_other _ _ hp]; simp only [List.length_cons]
    exact ⟨by omega, fun h => by rw [ih.2 (by omega)]⟩

theorem tE_append_fixed (a b : List Char) (hb : b.head? ≠ some '.') :
    transformEllipsis (a ++ b) = a ++ b ↔ transformEllipsis a = a ∧ transformEllipsis b = b := by
  rw [tE_append b hb]
  constructor
  · intro h
    have h1 := tE_length_le a
    have h2 := tE_length_le b
    have hl := congrArg List.length h
    simp only [List.length_append] at hl
    exact ⟨h1.2 (by omega), h2.2 (by omega)⟩
  · rintro ⟨h1, h2⟩; rw [h1, h2]

/-- The result of `transform_ellipsis` on a run of dots is stable unless the length is
6, 10, 14, ... -/
theorem tE_run_stable (k : Nat) :
    transformEllipsis (transformEllipsis (List.replicate k '.')) = transformEllipsis (List.replicate k '.')
      ↔ ¬ (6 ≤ k ∧ k % 4 = 2) := by
  induction k using Nat.strongRecOn with
  | ind k ih =>
    match k with
    | 0 => decide
    | 1 => decide
    | 2 => decide
    | 3 => decide
    | 4 => decide
    | 5 => decide
    | 6 => decide
    | 7 => decide
    | k + 8 =>
      have e : List.replicate (k + 8) '.' =
          '.' :: '.' :: '.' :: '.' :: List.replicate (k + 4) '.' := by simp [List.replicate_succ]
      have e2 : List.replicate (k + 4) '.' = '.' :: '.' :: '.' :: '.' :: List.replicate k '.' := by
        simp [List.replicate_succ]
      have h2 : transformEllipsis (List.replicate (k + 4) '.') =
          ellipsisC :: '.' :: transformEllipsis (List.replicate k '.') := by rw [e2, tE_four]
      have hih := ih (k + 4) (by omega)
      rw [e, tE_four]
      have hh : (transformEllipsis (List.replicate (k + 4) '.')).head? ≠ some '.' := by
        rw [h2]; simp [ellipsisC]
      have := tE_append_fixed [ellipsisC, '.'] (transformEllipsis (List.replicate (k + 4) '.')) hh
      simp only [List.cons_append, List.nil_append] at this
      rw [this, hih]
      have h0 : transformEllipsis [ellipsisC, '.'] = [ellipsisC, '.'] := by decide
      simp only [h0, true_and]
      constructor <;> intro h h' <;> apply h <;> omega

theorem runsGo_replicate (c : Char) (n k : Nat) (rest : List Char) :
    runsGo c n (List.replicate k c ++ rest) = runsGo c (n + k) rest := by
  induction k generalizing n with
  | zero => simp
  | succ k ih => simp [List.replicate_succ, runsGo, ih]; congr 1; omega

theorem runsGo_head (c : Char) (n : Nat) (rest : List Char) (h : rest.head? ≠ some c) :
    runsGo c n rest = n :: (runsGo c 0 rest).tail := by
  cases rest with
  | nil => rfl
  | cons d ds =>
    have : d ≠ c := by simpa using h
    simp [runsGo, this]

theorem dotRun_split (s : List Char) : ∃ k rest, s = List.replicate k '.' ++ rest ∧
    rest.head? ≠ some '.' := by
  induction s with
  | nil => exact ⟨0, [], rfl, by simp⟩
  | cons c cs ih =>
    by_cases hc : c = '.'
    · obtain ⟨k, rest, h1, h2⟩ := ih
      exact ⟨k + 1, rest, by rw [h1, hc]; simp [List.replicate_succ], h2⟩
    · exact ⟨0, c :: cs, rfl, by simpa using hc⟩

theorem tE_stable_iff (s : List Char) :
    transformEllipsis (transformEllipsis s) = transformEllipsis s ↔
      ∀ n ∈ runs '.' s, ¬ (6 ≤ n ∧ n % 4 = 2) := by
  generalize hl : s.length = l
  induction l using Nat.strongRecOn generalizing s with
  | ind l ih =>
    subst hl
    obtain ⟨k, rest, rfl, hr⟩ := dotRun_split s
    have hhead : (transformEllipsis rest).head? ≠ some '.' := by rwa [tE_head _ hr]
    rw [tE_append _ hr, tE_append_fixed _ _ hhead, tE_run_stable]
    have hruns : runs '.' (List.replicate k '.' ++ rest) = k :: (runs '.' rest).tail := by
      rw [runs, runsGo_replicate, Nat.zero_add, runsGo_head _ _ _ hr]; rfl
    rw [hruns, List.forall_mem_cons]
    apply and_congr Iff.rfl
    cases rest with
    | nil => simp [tE_nil, runs, runsGo]
    | cons c cs =>
      have hc : c ≠ '.' := by simpa using hr
      have hnp : ∀ t, ¬ ['.', '.', '.'] <+: c :: t := by
        rintro t ⟨u, hu⟩; simp at hu; exact hc hu.1.symm
      rw [tE_other _ _ (hnp _), tE_other _ _ (hnp _)]
      have hrc : (runs '.' (c :: cs)).tail = runs '.' cs := by simp [runs, runsGo, hc]
      rw [hrc, ← ih cs.length (by simp; omega) cs rfl]
      simp

theorem tE_expand (p : List Char) (s : List Char) (hp : p = ['.', '.', '.']) :
    expand '…' p (transformEllipsis s) = expand '…' p s := by
  subst hp
  revert s
  apply tE_induction
  · rfl
  · intro rest ih; rw [tE_four]; simpa [expand, ellipsisC] using ih
  · intro rest hr ih; rw [tE_three _ hr]; simpa [expand, ellipsisC] using ih
  · intro c rest hp ih; rw [tE_other _ _ hp]; simpa [expand] using ih

theorem tE_fold (en em : Option (List Char)) :
    ∀ s, fold en em (transformEllipsis s) = fold en em s := by
  have hd : foldChar en em '.' = ['.'] := by simp [foldChar]
  have he : foldChar en em ellipsisC = ['.', '.', '.'] := by simp [foldChar, ellipsisC]
  apply tE_induction
  · rfl
  · intro rest ih; rw [tE_four]; simpa [fold, hd, he] using ih
  · intro rest hr ih; rw [tE_three _ hr]; simpa [fold, hd, he] using ih
  · intro c rest hp ih; rw [tE_other _ _ hp]; simpa [fold] using ih

theorem expand_of_not_mem (rep : Char) (p s : List Char) (h : rep ∉ s) : expand rep p s = s := by
  induction s with
  | nil => rfl
  | cons c cs ih =>
    simp only [List.mem_cons, not_or] at h
    simp only [expand, List.flatMap_cons] at ih ⊢
    rw [ih h.2, if_neg (Ne.symm h.1)]; rfl

end Hongdown
