import Verif.Model.State
import Verif.Lemmas.Str
import Verif.Lemmas.Escape

/-!
# Lemmas on byte offsets, prefixes and suffixes
-/

namespace Hongdown
open Model

set_option linter.unusedSimpArgs false

theorem stripPrefix?_iff {p s r : List Char} : stripPrefix? p s = some r ↔ s = p ++ r := by
  induction p generalizing s with
  | nil => simp [stripPrefix?]
  | cons c p ih =>
    cases s with
    | nil => simp [stripPrefix?]
    | cons d s =>
      rw [stripPrefix?]
      split
      · rename_i h; subst h; simp [ih]
      · rename_i h
        simp only [reduceCtorEq, List.cons_append, List.cons.injEq, false_iff, not_and]
        intro h'; exact absurd h'.symm h

theorem stripPrefix?_none {p s : List Char} : stripPrefix? p s = none ↔ ¬ p <+: s := by
  constructor
  · rintro h ⟨r, hr⟩
    rw [stripPrefix?_iff.mpr hr.symm] at h
    exact absurd h (by simp)
  · intro h
    cases hs : stripPrefix? p s with
    | none => rfl
    | some r => exact absurd ⟨r, (stripPrefix?_iff.mp hs).symm⟩ h

theorem stripSuffix?_iff {p s r : List Char} : stripSuffix? p s = some r ↔ s = r ++ p := by
  rw [stripSuffix?, Option.map_eq_some_iff]
  constructor
  · rintro ⟨a, ha, rfl⟩
    have := congrArg List.reverse (stripPrefix?_iff.mp ha)
    simpa using this
  · rintro rfl
    exact ⟨r.reverse, stripPrefix?_iff.mpr (by simp), by simp⟩

theorem byteLen_append (a b : List Char) : byteLen (a ++ b) = byteLen a + byteLen b := by
  simp [byteLen]

theorem byteLen_cons (c : Char) (s : List Char) : byteLen (c :: s) = utf8Len c + byteLen s := by
  simp [byteLen]

theorem isBoundary_iff {s : List Char} {i : Nat} :
    isBoundary s i = true ↔ ∃ a b, s = a ++ b ∧ byteLen a = i := by
  induction s generalizing i with
  | nil =>
    cases i with
    | zero => exact ⟨fun _ => ⟨[], [], rfl, rfl⟩, fun _ => rfl⟩
    | succ i =>
      simp only [isBoundary, Bool.false_eq_true, false_iff]
      rintro ⟨a, b, h, hi⟩
      obtain ⟨rfl, _⟩ := List.append_eq_nil_iff.mp h.symm
      simp [byteLen] at hi
  | cons c s ih =>
    cases i with
    | zero => exact ⟨fun _ => ⟨[], c :: s, rfl, rfl⟩, fun _ => by simp [isBoundary]⟩
    | succ i =>
      simp only [isBoundary, Bool.and_eq_true, decide_eq_true_eq, ih]
      constructor
      · rintro ⟨h, a, b, rfl, ha⟩
        exact ⟨c :: a, b, rfl, by rw [byteLen_cons]; omega⟩
      · rintro ⟨a, b, h, ha⟩
        cases a with
        | nil => simp [byteLen] at ha
        | cons d a =>
          simp only [List.cons_append, List.cons.injEq] at h
          rw [byteLen_cons] at ha
          obtain ⟨rfl, rfl⟩ := h
          exact ⟨by omega, a, b, rfl, by omega⟩

theorem byteTake_append (a b : List Char) : byteTake (byteLen a) (a ++ b) = a := by
  induction a with
  | nil => cases b <;> rfl
  | cons c a ih =>
    have hp := utf8Len_pos c
    obtain ⟨n, hn⟩ : ∃ n, byteLen (c :: a) = n + 1 :=
      ⟨byteLen (c :: a) - 1, by rw [byteLen_cons]; omega⟩
    rw [hn, List.cons_append, byteTake]
    have : n + 1 - utf8Len c = byteLen a := by rw [← hn, byteLen_cons]; omega
    rw [this, ih]

theorem byteDrop_append (a b : List Char) : byteDrop (byteLen a) (a ++ b) = b := by
  induction a with
  | nil => cases b <;> rfl
  | cons c a ih =>
    have hp := utf8Len_pos c
    obtain ⟨n, hn⟩ : ∃ n, byteLen (c :: a) = n + 1 :=
      ⟨byteLen (c :: a) - 1, by rw [byteLen_cons]; omega⟩
    rw [hn, List.cons_append, byteDrop]
    have : n + 1 - utf8Len c = byteLen a := by rw [← hn, byteLen_cons]; omega
    rw [this, ih]

/-- Prefixes of one text are ordered by their lengths in bytes. -/
theorem prefix_of_byteLen {a a' b b' : List Char} (h : a ++ b = a' ++ b')
    (hl : byteLen a ≤ byteLen a') : ∃ r, a' = a ++ r := by
  rcases List.append_eq_append_iff.mp h with ⟨x, hx, _⟩ | ⟨x, hx, _⟩
  · exact ⟨x, hx⟩
  · rw [hx, byteLen_append] at hl
    cases x with
    | nil => exact ⟨[], by simpa using hx.symm⟩
    | cons c x =>
      have := utf8Len_pos c
      rw [byteLen_cons] at hl
      omega

theorem byteSlice_append (a r b : List Char) :
    byteSlice (a ++ r ++ b) (byteLen a) (byteLen (a ++ r)) = some r := by
  rw [byteSlice, if_pos, byteTake_append, byteDrop_append]
  simp only [Bool.and_eq_true, decide_eq_true_eq, isBoundary_iff]
  exact ⟨⟨by rw [byteLen_append]; omega, a, r ++ b, by simp, rfl⟩, a ++ r, b, rfl, rfl⟩

theorem byteSlice_some {s r : List Char} {i j : Nat} (h : byteSlice s i j = some r) :
    ∃ a b, s = a ++ r ++ b ∧ byteLen a = i ∧ byteLen (a ++ r) = j := by
  rw [byteSlice] at h
  split at h
  · rename_i hc
    simp only [Bool.and_eq_true, decide_eq_true_eq, isBoundary_iff] at hc
    obtain ⟨⟨hij, a, x, hs, ha⟩, a', b, hs', ha'⟩ := hc
    obtain ⟨r', rfl⟩ := prefix_of_byteLen (hs.symm.trans hs') (by omega)
    have : byteSlice s i j = some r' := by
      rw [← ha, ← ha', hs']; exact byteSlice_append a r' b
    rw [byteSlice, if_pos] at this
    · rw [this] at h
      simp only [Option.some.injEq] at h
      subst h
      exact ⟨a, b, hs', ha, ha'⟩
    · simp only [Bool.and_eq_true, decide_eq_true_eq, isBoundary_iff]
      exact ⟨⟨hij, a, x, hs, ha⟩, a ++ r', b, hs', ha'⟩
  · exact absurd h (by simp)

theorem isBoundary_le {s : List Char} {i : Nat} (h : isBoundary s i = true) : i ≤ byteLen s := by
  obtain ⟨a, b, rfl, rfl⟩ := isBoundary_iff.mp h
  rw [byteLen_append]; omega

theorem isBoundary_len (s : List Char) : isBoundary s (byteLen s) = true :=
  isBoundary_iff.mpr ⟨s, [], by simp, rfl⟩

theorem find_reverse_range {f : Nat → Bool} {n : Nat} {m : Nat}
    (h : (List.range n).reverse.find? f = some m) :
    f m = true ∧ m < n ∧ ∀ j, f j = true → j < n → j ≤ m := by
  induction n with
  | zero => simp at h
  | succ n ih =>
    rw [List.range_succ, List.reverse_append, List.reverse_singleton, List.singleton_append,
      List.find?_cons] at h
    split at h
    · rename_i hf
      simp only [Option.some.injEq] at h
      subst h
      exact ⟨hf, by omega, fun j _ hj => by omega⟩
    · rename_i hf
      obtain ⟨h1, h2, h3⟩ := ih h
      refine ⟨h1, by omega, fun j hj hjn => ?_⟩
      by_cases hn : j = n
      · subst hn; rw [hj] at hf; exact absurd hf (by simp)
      · exact h3 j hj (by omega)

theorem find_range' {f : Nat → Bool} {s n m : Nat} (h : (List.range' s n).find? f = some m) :
    f m = true ∧ s ≤ m ∧ ∀ j, f j = true → s ≤ j → m ≤ j := by
  induction n generalizing s with
  | zero => simp at h
  | succ n ih =>
    rw [List.range'_succ, List.find?_cons] at h
    split at h
    · rename_i hf
      simp only [Option.some.injEq] at h
      subst h
      exact ⟨hf, by omega, fun j _ hj => hj⟩
    · rename_i hf
      obtain ⟨h1, h2, h3⟩ := ih h
      refine ⟨h1, by omega, fun j hj hs => ?_⟩
      by_cases hn : j = s
      · subst hn; rw [hj] at hf; exact absurd hf (by simp)
      · exact h3 j hj (by omega)

/-- The adjusted start is the last boundary that is not after the offset. -/
theorem safeStart_spec (s : List Char) (n : Nat) :
    isBoundary s (safeStart s n) = true ∧ safeStart s n ≤ n ∧
      ∀ j, isBoundary s j = true → j ≤ n → j ≤ safeStart s n := by
  unfold safeStart
  split
  · rename_i h
    exact ⟨isBoundary_len s, h, fun j hj _ => isBoundary_le hj⟩
  · split
    · rename_i h
      exact ⟨h, Nat.le_refl _, fun j _ hj => hj⟩
    · rename_i h0 hb
      cases hf : (List.range n).reverse.find? (isBoundary s) with
      | some m =>
        obtain ⟨h1, h2, h3⟩ := find_reverse_range hf
        refine ⟨h1, by simp; omega, fun j hj hjn => h3 j hj ?_⟩
        rcases Nat.lt_or_eq_of_le hjn with h | rfl
        · exact h
        · exact absurd hj hb
      | none =>
        exfalso
        have hn : n ≠ 0 := by rintro rfl; exact hb (by cases s <;> rfl)
        have := List.find?_eq_none.mp hf 0 (by simp; omega)
        exact this (by cases s <;> rfl)

/-- The adjusted end is the first boundary that is not before the offset, or the end. -/
theorem safeEnd_spec (s : List Char) (n : Nat) :
    isBoundary s (safeEnd s n) = true ∧ (n ≤ safeEnd s n ∨ safeEnd s n = byteLen s) ∧
      ∀ j, isBoundary s j = true → n ≤ j → safeEnd s n ≤ j := by
  unfold safeEnd
  split
  · rename_i h
    exact ⟨isBoundary_len s, .inr rfl, fun j _ hj' => by omega⟩
  · split
    · rename_i h
      exact ⟨h, .inl (Nat.le_refl _), fun j _ hj => hj⟩
    · rename_i h0 hb
      cases hf : (List.range' n (byteLen s + 1 - n)).find? (isBoundary s) with
      | some m =>
        obtain ⟨h1, h2, h3⟩ := find_range' hf
        exact ⟨h1, .inl h2, h3⟩
      | none =>
        exfalso
        have := List.find?_eq_none.mp hf (byteLen s) (by rw [List.mem_range'_1]; omega)
        exact this (isBoundary_len s)

end Hongdown
