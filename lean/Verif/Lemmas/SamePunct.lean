import Verif.Lemmas.Pairs
import Verif.Spec.Unused

/-! # Lemmas for C99 and C105: punctuation settings for a text -/

namespace Hongdown
open Model Spec

theorem dashGo_prefix (pat : List Char) (rep : Char) : ∀ (s w : List Char) (k : Nat) (prev : Option Char), rep ∉ w →
    w <+: dashGo pat rep k prev s → w <+: s.drop k
  | [], w, k, prev, _, h => by simpa [dashGo] using h
  | c :: s, w, k + 1, prev, hr, h => by
    rw [dashGo] at h
    exact dashGo_prefix pat rep s w k _ hr h
  | c :: s, [], 0, prev, hr, h => List.nil_prefix
  | c :: s, x :: w, 0, prev, hr, h => by
    have hx : x ≠ rep := fun e => hr (by simp [e])
    have hw : rep ∉ w := fun e => hr (by simp [e])
    have key : ∀ k, x :: w <+: rep :: dashGo pat rep k (some c) s → False := by
      intro k h'
      exact hx (List.cons_prefix_cons.1 h').1
    have key2 : x :: w <+: c :: dashGo pat rep 0 (some c) s → x :: w <+: c :: s := by
      intro h'
      obtain ⟨h1, h2⟩ := List.cons_prefix_cons.1 h'
      exact List.cons_prefix_cons.2 ⟨h1, by simpa using dashGo_prefix pat rep s w 0 _ hw h2⟩
    show x :: w <+: c :: s
    rw [dashGo] at h
    split at h
    · split at h
      · simp only at h
        split at h
        · exact (key _ h).elim
        · exact key2 h
      · exact (key _ h).elim
    · exact key2 h

theorem dashGo_infix (pat : List Char) (rep : Char) : ∀ (s w : List Char) (k : Nat) (prev : Option Char), rep ∉ w → w ≠ [] →
    w <:+: dashGo pat rep k prev s → w <:+: s
  | [], w, k, prev, _, _, h => by simpa [dashGo] using h
  | c :: s, w, k + 1, prev, hr, h0, h => by
    rw [dashGo] at h
    exact (dashGo_infix pat rep s w k _ hr h0 h).trans (List.suffix_cons c s).isInfix
  | c :: s, w, 0, prev, hr, h0, h => by
    have hs := (List.suffix_cons c s).isInfix
    have key : ∀ k, w <:+: rep :: dashGo pat rep k (some c) s → w <:+: c :: s := by
      intro k h'
      rcases List.infix_cons_iff.1 h' with h' | h'
      · cases w with
        | nil => exact absurd rfl h0
        | cons x w => exact absurd (List.cons_prefix_cons.1 h').1 (fun e => hr (by simp [e]))
      · exact (dashGo_infix pat rep s w k _ hr h0 h').trans hs
    have key2 : w <:+: c :: dashGo pat rep 0 (some c) s → w <:+: c :: s := by
      intro h'
      rcases List.infix_cons_iff.1 h' with h' | h'
      · cases w with
        | nil => exact absurd rfl h0
        | cons x w =>
          obtain ⟨h1, h2⟩ := List.cons_prefix_cons.1 h'
          refine List.IsPrefix.isInfix (List.cons_prefix_cons.2 ⟨h1, ?_⟩)
          simpa using dashGo_prefix pat rep s w 0 _ (fun e => hr (by simp [e])) h2
      · exact (dashGo_infix pat rep s w 0 _ hr h0 h').trans hs
    rw [dashGo] at h
    split at h
    · split at h
      · simp only at h
        split at h
        · exact key _ h
        · exact key2 h
      · exact key _ h
    · exact key2 h

theorem transformDashes_infix {pat : List Char} {rep : Char} {s w : List Char} (hr : rep ∉ w) (h0 : w ≠ [])
    (h : w <:+: transformDashes pat rep s) : w <:+: s := by
  rw [transformDashes] at h
  split at h
  · exact h
  · exact dashGo_infix pat rep s w 0 none hr h0 h

theorem stDash_same {a b : Option (List Char)} {rep : Char} {s : List Char}
    (h : a = b ∨ ∀ p, a = some p ∨ b = some p → ¬ p <:+: s) : stDash a rep s = stDash b rep s := by
  rcases h with h | h
  · rw [h]
  · have key : ∀ c : Option (List Char), (c = a ∨ c = b) → stDash c rep s = s := by
      intro c hc
      cases c with
      | none => rfl
      | some p => exact transformDashes_absent rep (h p (by rcases hc with e | e <;> simp [e]))
    rw [key a (.inl rfl), key b (.inr rfl)]

theorem stDash_infix {d : Option (List Char)} {rep : Char} {s w : List Char} (hr : rep ∉ w) (h0 : w ≠ [])
    (h : w <:+: stDash d rep s) : w <:+: s := by
  cases d with
  | none => exact h
  | some p => exact transformDashes_infix hr h0 h

theorem singleton_infix {c : Char} {s : List Char} : [c] <:+: s ↔ c ∈ s := by
  constructor
  · intro h; exact h.subset (by simp)
  · intro h
    obtain ⟨a, b, e⟩ := List.append_of_mem h
    exact ⟨a, b, by rw [e]; simp⟩

theorem transformPunctuation_same (u : Uni) {o o' : PunctOpts} {t : List Char} (h : SamePunct o o' t) :
    transformPunctuation u o t = transformPunctuation u o' t := by
  obtain ⟨hem, hen, hel, hd, hs⟩ := h
  rw [transformPunctuation_eq, transformPunctuation_eq, ← stDash_same hem]
  generalize h1 : stDash o.emDash emDashC t = s1
  have i1 : ∀ w, '—' ∉ w → w ≠ [] → w <:+: s1 → w <:+: t := fun w hw h0 h => stDash_infix hw h0 (h1 ▸ h)
  rw [← stDash_same (s := s1) (rep := enDashC) (a := o.enDash) (b := o'.enDash) (by
    rcases hen with e | e
    · exact .inl e
    · refine .inr fun p hp hi => ?_
      by_cases h0 : p = []
      · exact (e p hp).1 (h0 ▸ List.nil_infix)
      · exact (e p hp).1 (i1 p (e p hp).2 h0 hi))]
  generalize h2 : stDash o.enDash enDashC s1 = s2
  have i2 : ∀ w, '—' ∉ w → '–' ∉ w → w ≠ [] → w <:+: s2 → w <:+: t :=
    fun w hw hw' h0 h => i1 w hw h0 (stDash_infix hw' h0 (h2 ▸ h))
  have e3 : stEll o'.ellipsis s2 = stEll o.ellipsis s2 := by
    by_cases h : ['.', '.', '.'] <:+: t
    · rw [hel h]
    · have : transformEllipsis s2 = s2 := (tE_fixed_iff s2).2 fun h' => h (i2 _ (by decide) (by decide) (by simp) h')
      simp only [stEll, this, ite_self]
  rw [e3]
  generalize h3 : stEll o.ellipsis s2 = s3
  have i3 : ∀ c, c ≠ '—' → c ≠ '–' → c ≠ '…' → c ∈ s3 → c ∈ t := by
    intro c c1 c2 c3 hc
    have hc : c ∈ s2 := by
      rw [← h3, stEll] at hc
      split at hc
      · exact (mem_tE c s2 hc).resolve_right c3
      · exact hc
    exact singleton_infix.1 (i2 [c] (by simpa using c1.symm) (by simpa using c2.symm) (by simp) (singleton_infix.2 hc))
  have e4 : stDbl o'.curlyDouble s3 = stDbl o.curlyDouble s3 := by
    by_cases h : '"' ∈ t
    · rw [hd h]
    · have : transformDoubleQuotes s3 = s3 := by
        refine ctxMap_id _ _ (fun st prev c rest hc => ?_) _ _
        rw [doubleStep, if_neg]
        rintro rfl
        exact h (i3 _ (by decide) (by decide) (by decide) hc)
      simp only [stDbl, this, ite_self]
  rw [e4]
  generalize h4 : stDbl o.curlyDouble s3 = s4
  have i4 : '\'' ∈ s4 → '\'' ∈ t := by
    intro hc
    rw [← h4, stDbl] at hc
    split at hc
    · obtain ⟨st, prev, c, rest, hm, e⟩ := ctxMap_mem doubleStep s3 _ _ _ hc
      rw [doubleStep] at e
      split at e
      · split at e <;> exact absurd e (by decide)
      · have e : '\'' = c := e
        subst e
        exact i3 _ (by decide) (by decide) (by decide) hm
    · exact i3 _ (by decide) (by decide) (by decide) hc
  by_cases hq : '\'' ∈ t
  · rw [(hs hq).1, (hs hq).2]
  · have e1 : transformSingleQuotes u s4 = s4 := by
      refine ctxMap_id _ _ (fun st prev c rest hc => ?_) _ _
      rw [singleStep, if_neg]
      rintro rfl
      exact hq (i4 hc)
    have e2 : transformApostrophes u s4 = s4 := by
      refine ctxMap_id _ _ (fun st prev c rest hc => ?_) _ _
      rw [apostropheStep, if_neg]
      rintro rfl
      exact hq (i4 hc)
    simp only [stSgl, stApo, e1, ite_self, e2]

end Hongdown
