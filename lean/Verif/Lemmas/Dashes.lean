import Verif.Lemmas.Ellipsis

namespace Hongdown
open Model Spec

/-! ## Patterns of two or more characters -/

theorem dashGo_prev (pat : List Char) (rep : Char) (h1 : pat.length ≠ 1) (s : List Char) :
    ∀ k p q, dashGo pat rep k p s = dashGo pat rep k q s := by
  induction s with
  | nil => intro k p q; cases k <;> rfl
  | cons c cs ih =>
    intro k p q
    cases k with
    | zero => simp only [dashGo, h1, if_false]
    | succ k => simp only [dashGo]

theorem dashGo_drop (pat : List Char) (rep : Char) (h1 : pat.length ≠ 1) (s : List Char) :
    ∀ k p, dashGo pat rep k p s = dashGo pat rep 0 none (s.drop k) := by
  induction s with
  | nil => intro k p; cases k <;> simp [dashGo]
  | cons c cs ih =>
    intro k p
    cases k with
    | zero => exact dashGo_prev pat rep h1 _ _ _ _
    | succ k => rw [dashGo, ih, List.drop_succ_cons]

theorem tD_match {pat : List Char} {rep : Char} (h2 : 2 ≤ pat.length) (rest : List Char) :
    transformDashes pat rep (pat ++ rest) = rep :: transformDashes pat rep rest := by
  have h0 : pat ≠ [] := by rintro rfl; simp at h2
  simp only [transformDashes, h0, if_false]
  cases pat with
  | nil => exact absurd rfl h0
  | cons c p =>
    have h1 : (c :: p).length ≠ 1 := by omega
    have hp : (c :: p).isPrefixOf (c :: (p ++ rest)) = true := by
      rw [List.isPrefixOf_iff_prefix]; exact ⟨rest, rfl⟩
    rw [List.cons_append, dashGo]
    simp only [hp, if_true, h1, if_false]
    rw [dashGo_drop _ _ h1]
    simp

theorem tD_other {pat : List Char} {rep : Char} (h2 : 2 ≤ pat.length) {c : Char} {rest : List Char}
    (h : ¬ pat <+: c :: rest) :
    transformDashes pat rep (c :: rest) = c :: transformDashes pat rep rest := by
  have h0 : pat ≠ [] := by rintro rfl; simp at h2
  have h1 : pat.length ≠ 1 := by omega
  have hp : pat.isPrefixOf (c :: rest) = false := by
    rw [Bool.eq_false_iff]; intro hh; exact h (List.isPrefixOf_iff_prefix.mp hh)
  simp only [transformDashes, h0, if_false]
  rw [dashGo]
  simp only [hp]
  rw [if_neg (by simp), dashGo_prev _ _ h1 _ _ _ none]

theorem tD_nil (pat : List Char) (rep : Char) : transformDashes pat rep [] = [] := by
  simp only [transformDashes]; split <;> rfl

/-- Induction along the steps of `transform_dashes` for a long pattern. -/
theorem tD_induction {pat : List Char} (h2 : 2 ≤ pat.length) {P : List Char → Prop} (h0 : P [])
    (hm : ∀ rest, P rest → P (pat ++ rest))
    (ho : ∀ c rest, ¬ pat <+: c :: rest → P rest → P (c :: rest)) : ∀ s, P s := by
  intro s
  generalize hn : s.length = n
  induction n using Nat.strongRecOn generalizing s with
  | ind n ih =>
    subst hn
    cases s with
    | nil => exact h0
    | cons c rest =>
      by_cases hp : pat <+: c :: rest
      · obtain ⟨t, ht⟩ := hp
        rw [← ht] at ih ⊢
        exact hm t (ih _ (by simp; omega) t rfl)
      · exact ho c rest hp (ih _ (by simp) rest rfl)

theorem tD_prefix {pat : List Char} {rep : Char} (h2 : 2 ≤ pat.length) (q : List Char) :
    ∀ s, rep ∉ q → q <+: transformDashes pat rep s → q <+: s := by
  induction q with
  | nil => intro s _ _; exact List.nil_prefix
  | cons x q ih =>
    intro s hr hq
    simp only [List.mem_cons, not_or] at hr
    cases s with
    | nil => rw [tD_nil] at hq; simp at hq
    | cons c cs =>
      by_cases hp : pat <+: c :: cs
      · obtain ⟨t, ht⟩ := hp
        rw [← ht, tD_match h2] at hq
        rw [List.cons_prefix_cons] at hq
        exact absurd hq.1.symm hr.1
      · rw [tD_other h2 hp, List.cons_prefix_cons] at hq
        rw [List.cons_prefix_cons]
        exact ⟨hq.1, ih cs hr.2 hq.2⟩

theorem tD_not_infix {pat : List Char} {rep : Char} (h2 : 2 ≤ pat.length) (hr : rep ∉ pat) :
    ∀ s, ¬ pat <:+: transformDashes pat rep s := by
  have h0 : pat ≠ [] := by rintro rfl; simp at h2
  have key : ∀ c t, ¬ pat <+: c :: t → ¬ pat <:+: t → ¬ pat <:+: c :: t := by
    intro c t h1 h2 h3
    rcases List.infix_cons_iff.mp h3 with h | h
    · exact h1 h
    · exact h2 h
  refine tD_induction h2 (P := fun s => ¬ pat <:+: transformDashes pat rep s) ?_ ?_ ?_
  · rw [tD_nil]; intro h; exact h0 (List.eq_nil_of_infix_nil h)
  · intro rest ih
    rw [tD_match h2]
    apply key _ _ _ ih
    cases pat with
    | nil => exact absurd rfl h0
    | cons x p =>
      rw [List.cons_prefix_cons]
      simp only [List.mem_cons, not_or] at hr
      exact fun h => hr.1 h.1.symm
  · intro c rest hp ih
    rw [tD_other h2 hp]
    apply key _ _ _ ih
    rw [← tD_other (rep := rep) h2 hp]
    exact fun h => hp (tD_prefix h2 pat _ hr h)

theorem tD_id {pat : List Char} {rep : Char} (h2 : 2 ≤ pat.length) :
    ∀ s, ¬ pat <:+: s → transformDashes pat rep s = s := by
  intro s
  induction s with
  | nil => intro _; exact tD_nil _ _
  | cons c cs ih =>
    intro h
    rw [tD_other h2 (fun hp => h hp.isInfix), ih]
    exact fun hh => h (hh.trans (List.suffix_cons c cs).isInfix)

theorem tD_expand {pat : List Char} {rep : Char} (h2 : 2 ≤ pat.length) (hr : rep ∉ pat) :
    ∀ s, expand rep pat (transformDashes pat rep s) = expand rep pat s := by
  refine tD_induction h2 (P := fun s => expand rep pat (transformDashes pat rep s) = expand rep pat s)
    ?_ ?_ ?_
  · rw [tD_nil]
  · intro rest ih
    rw [tD_match h2]
    have e : expand rep pat (pat ++ rest) = expand rep pat pat ++ expand rep pat rest := by
      simp [expand]
    rw [e, expand_of_not_mem _ _ _ hr, ← ih]
    simp [expand]
  · intro c rest hp ih
    rw [tD_other h2 hp]
    simpa [expand] using ih

theorem fold_append (en em : Option (List Char)) (a b : List Char) :
    fold en em (a ++ b) = fold en em a ++ fold en em b := by simp [fold]

theorem fold_cons (en em : Option (List Char)) (c : Char) (b : List Char) :
    fold en em (c :: b) = foldChar en em c ++ fold en em b := by simp [fold]

/-- A printable ASCII character, as required of dash patterns. -/
def IsGraphic (c : Char) : Prop := 0x21 ≤ c.toNat ∧ c.toNat ≤ 0x7E

theorem foldChar_ascii (en em : Option (List Char)) {c : Char} (h : c.toNat < 128) :
    foldChar en em c = [c] := by
  have hne : ∀ d : Char, 128 ≤ d.toNat → c ≠ d := by rintro d hd rfl; omega
  simp [foldChar, hne '“' (by decide), hne '”' (by decide), hne '‘' (by decide),
    hne '’' (by decide), hne '…' (by decide), hne '–' (by decide), hne '—' (by decide)]

theorem fold_ascii (en em : Option (List Char)) {s : List Char} (h : ∀ c ∈ s, c.toNat < 128) :
    fold en em s = s := by
  induction s with
  | nil => rfl
  | cons c cs ih =>
    rw [fold_cons, foldChar_ascii _ _ (h c (by simp)), ih (fun c hc => h c (by simp [hc]))]
    rfl

theorem not_mem_of_ascii {s : List Char} (h : ∀ c ∈ s, c.toNat < 128) {d : Char}
    (hd : 128 ≤ d.toNat) : d ∉ s := fun hm => by have := h d hm; omega

/-! ## Patterns of one character -/

theorem tS_eq (p rep : Char) (s : List Char) :
    transformDashes [p] rep s = dashGo [p] rep 0 none s := by simp [transformDashes]

/-- Whether a character is the text end or whitespace. -/
def edge (o : Option Char) : Bool := o = none || o.any isWs

theorem dashGo_single (p rep : Char) (prev : Option Char) (c : Char) (cs : List Char) :
    dashGo [p] rep 0 prev (c :: cs) =
      (if c = p ∧ edge prev = true ∧ edge cs.head? = true then rep else c) ::
        dashGo [p] rep 0 (some c) cs := by
  rw [dashGo]
  have e : (cs = [] || cs.head?.any isWs) = edge cs.head? := by
    cases cs <;> simp [edge]
  have e' : (decide (cs = []) || cs.head?.any isWs) = edge cs.head? := e
  by_cases hc : c = p
  · subst hc
    simp only [List.isPrefixOf, beq_self_eq_true, Bool.true_and, if_true, List.length_singleton,
      Nat.sub_self, true_and]
    rw [e']
    have : (decide (prev = none) || prev.any isWs) = edge prev := rfl
    rw [this]
    cases edge prev <;> cases edge cs.head? <;> simp
  · have : ¬ p = c := fun h => hc h.symm
    simp [List.isPrefixOf, hc, this]

/-- The pass for one-character patterns as a map over positions. -/
theorem tS_getElem (p rep : Char) (s : List Char) : ∀ (prev : Option Char) (i : Nat),
    (dashGo [p] rep 0 prev s)[i]? =
      s[i]?.map fun c =>
        if c = p ∧ edge (if i = 0 then prev else s[i - 1]?) = true ∧ edge s[i + 1]? = true
        then rep else c := by
  induction s with
  | nil => intro prev i; simp [dashGo]
  | cons c cs ih =>
    intro prev i
    rw [dashGo_single]
    cases i with
    | zero =>
      cases cs <;> simp <;> congr
    | succ i =>
      rw [List.getElem?_cons_succ, ih]
      cases i with
      | zero => simp
      | succ i => simp

theorem dashGo_single_head (p rep : Char) (prev : Option Char) (s : List Char)
    (hp : isWs p = false) (hr : isWs rep = false) :
    edge (dashGo [p] rep 0 prev s).head? = edge s.head? := by
  cases s with
  | nil => simp [dashGo]
  | cons c cs =>
    rw [dashGo_single]
    by_cases hc : c = p ∧ edge prev = true ∧ edge cs.head? = true
    · rw [if_pos hc]; simp [edge, hr, hc.1, hp]
    · rw [if_neg hc]; simp

theorem dashGo_single_idem (p rep : Char) (hp : isWs p = false) (hr : isWs rep = false)
    (hne : rep ≠ p) (s : List Char) : ∀ prev prev', edge prev = edge prev' →
    dashGo [p] rep 0 prev' (dashGo [p] rep 0 prev s) = dashGo [p] rep 0 prev s := by
  induction s with
  | nil => intro prev prev' _; rfl
  | cons c cs ih =>
    intro prev prev' he
    rw [dashGo_single, dashGo_single, dashGo_single_head _ _ _ _ hp hr]
    by_cases hc : c = p ∧ edge prev = true ∧ edge cs.head? = true
    · rw [if_pos hc, if_neg (fun h => hne h.1)]
      rw [ih]
      simp [edge, hr, hc.1, hp]
    · rw [if_neg hc, if_neg (fun h => hc ⟨h.1, he ▸ h.2.1, h.2.2⟩), ih _ _ rfl]

theorem dashGo_single_expand (p rep : Char) (hne : rep ≠ p) (s : List Char) :
    ∀ prev, expand rep [p] (dashGo [p] rep 0 prev s) = expand rep [p] s := by
  induction s with
  | nil => intro prev; rfl
  | cons c cs ih =>
    intro prev
    rw [dashGo_single]
    have hne' : ¬ p = rep := fun h => hne h.symm
    have := ih (some c)
    simp only [expand, List.flatMap_cons] at this ⊢
    rw [this]
    by_cases hc : c = p ∧ edge prev = true ∧ edge cs.head? = true
    · rw [if_pos hc, hc.1]; simp [hne']
    · rw [if_neg hc]

/-! ## Both kinds: folding -/

theorem tD_fold (en em : Option (List Char)) (pat : List Char) (rep : Char)
    (ha : ∀ c ∈ pat, c.toNat < 128) (hrep : foldChar en em rep = pat) (h0 : pat ≠ []) (s : List Char) :
    fold en em (transformDashes pat rep s) = fold en em s := by
  by_cases h1 : pat.length = 1
  · obtain ⟨p, rfl⟩ := List.length_eq_one_iff.mp h1
    rw [tS_eq]
    have hp : foldChar en em p = [p] := foldChar_ascii _ _ (ha p (by simp))
    suffices h : ∀ prev, fold en em (dashGo [p] rep 0 prev s) = fold en em s from h none
    induction s with
    | nil => intro prev; rfl
    | cons c cs ih =>
      intro prev
      rw [dashGo_single, fold_cons, fold_cons, ih]
      by_cases hc : c = p ∧ edge prev = true ∧ edge cs.head? = true
      · rw [if_pos hc, hrep, hc.1, hp]
      · rw [if_neg hc]
  · have h2 : 2 ≤ pat.length := by
      have : pat.length ≠ 0 := by simpa using h0
      omega
    refine tD_induction h2 (P := fun s => fold en em (transformDashes pat rep s) = fold en em s)
      ?_ ?_ ?_ s
    · rw [tD_nil]
    · intro rest ih
      rw [tD_match h2, fold_cons, fold_append, ih, hrep, fold_ascii _ _ ha]
    · intro c rest hp ih
      rw [tD_other h2 hp, fold_cons, fold_cons, ih]

end Hongdown
