import Verif.Spec.Fitted
import Verif.Lemmas.Core
import Verif.Lemmas.WrapLayout

/-!
# Wrapped plain text fits the line width
-/

namespace Hongdown.Model
open Spec

theorem width_spaces_append {w : List Char → Nat} (hw : WidthOk w) : ∀ (n : Nat) (l : List Char), w (spaces n ++ l) = n + w l
  | 0, l => by simp [spaces]
  | n + 1, l => by
    have e : spaces (n + 1) ++ l = [] ++ ' ' :: (spaces n ++ l) := by simp [spaces, List.replicate_succ]
    rw [e, hw.space, hw.nil, width_spaces_append hw n l]; omega

theorem unbreakable_prefix {l t : List Char} (h : Unbreakable (l ++ t)) : Unbreakable l := by
  unfold Unbreakable at *
  rw [bare_append] at h
  exact fun hc => h (List.mem_append.2 (.inl hc))

theorem softOk_plain {ls : List (List Char)} (h0 : ls ≠ []) (h : ∀ l ∈ ls, TextLine l) : SoftOk (joinWith ['\x00'] ls) := by
  have hsp : splitOn '\x00' (joinWith ['\x00'] ls) = ls :=
    splitOn_join h0 (fun l hl => textLine_not_mem (h l hl) _ (by decide) (by decide))
  unfold SoftOk
  split
  · rw [hsp]
    intro l hl
    rw [(textLine_clean (h l hl)).trim]
    exact textLine_ne_nil (h l hl)
  · cases ls with
    | nil => simp [joinWith]
    | cons l r =>
      intro e
      have hl := h l (by simp)
      have : (joinWith ['\x00'] (l :: r)).head? = l.head? := by
        cases r with
        | nil => rfl
        | cons _ _ => rw [joinWith_cons _ _ (by simp)]; cases l with
          | nil => exact absurd rfl (textLine_ne_nil hl)
          | cons _ _ => rfl
      rw [this] at e
      exact absurd (textLine_head hl _ e) (by decide)

/-- The lines of plain text that is wrapped fit, the prefix of the first not being counted. -/
theorem parFits_of {w : List Char → Nat} (hw : WidthOk w) (n lw : Nat) {ls ms : List (List Char)} (h0 : ls ≠ []) (h : ∀ l ∈ ls, TextLine l)
    (mt : ∀ m ∈ ms, TextLine m)
    (e : wrapSegment w (joinWith ['\x00'] ls) [] (spaces n) lw = joinWith ['\n'] (layout [] (spaces n) ms)) :
    ParFits (FitsOrWord w lw) 0 n ms := by
  have hp : PfxOk (spaces n) := by
    cases n with
    | zero => exact .inl rfl
    | succ n => right; rw [spaces, List.replicate_succ']; simp
  have hnp : '\n' ∉ spaces n := by
    intro hm; exact absurd (List.eq_of_mem_replicate hm) (by decide)
  have hnl : '\n' ∉ joinWith ['\x00'] ls := by
    intro hm
    rcases mem_joinWith hm with hm | ⟨l, hl, hm⟩
    · exact absurd hm (by decide)
    · exact textLine_not_mem (h l hl) _ (by decide) (by decide) hm
  have key : ∀ m ∈ ms, ∀ q, (q = [] ∨ q = spaces n) → q ++ m ∈ splitOn '\n' (wrapSegment w (joinWith ['\x00'] ls) [] (spaces n) lw) →
      w (q ++ m) ≤ lw ∨ Unbreakable m := by
    intro m hm q hq hl
    rcases wrapSegment_width hw lw (.inl rfl) hp (by simp) hnp hnl (softOk_plain h0 h) hl with h1 | ⟨q', u, hq', hu, he⟩
    · exact .inl h1
    · right
      obtain ⟨t, _, ht⟩ := trimEnd_append (q' ++ u)
      rw [← he] at ht
      by_cases hqq : q' = []
      · rw [hqq, List.nil_append] at ht
        rw [ht] at hu
        have hu := unbreakable_prefix hu
        rcases hq with rfl | rfl
        · exact hu
        · cases n with
          | zero => exact hu
          | succ n =>
            refine absurd ?_ hu
            simp [spaces, List.replicate_succ, bareGo]
      · have hq'' : q' = spaces n := hq'.resolve_left hqq
        by_cases hq0 : q = []
        · rw [hq0, List.nil_append, hq''] at ht
          obtain ⟨c, m', rfl⟩ := List.exists_cons_of_ne_nil (textLine_ne_nil (mt m hm))
          have : rawChar c = true := textLine_head (mt _ hm) c rfl
          cases n with
          | zero => exact absurd hq'' hqq
          | succ n =>
            simp only [spaces, List.replicate_succ, List.cons_append, List.cons.injEq] at ht
            rw [← ht.1] at this
            exact absurd this (by decide)
        · rw [hq.resolve_left hq0, hq'', List.append_assoc] at ht
          have ht := List.append_cancel_left ht
          rw [ht] at hu
          exact unbreakable_prefix hu
  cases ms with
  | nil => trivial
  | cons m r =>
    have hsp : splitOn '\n' (wrapSegment w (joinWith ['\x00'] ls) [] (spaces n) lw) = layout [] (spaces n) (m :: r) := by
      rw [e]
      refine splitOn_join (by simp [layout]) ?_
      intro l hl
      rw [layout, List.mem_cons, List.mem_map] at hl
      rcases hl with rfl | ⟨x, hx, rfl⟩
      · simpa using textLine_not_mem (mt l (by simp)) '\n' (by decide) (by decide)
      · intro hc
        rcases List.mem_append.1 hc with hc | hc
        · exact hnp hc
        · exact textLine_not_mem (mt x (by simp [hx])) '\n' (by decide) (by decide) hc
    rw [hsp, layout] at key
    refine ⟨?_, ?_⟩
    · rcases key m (by simp) [] (.inl rfl) (by simp) with h1 | h1
      · exact .inl (by unfold Fits; simpa using h1)
      · exact .inr h1
    · intro x hx
      rcases key x (by simp [hx]) (spaces n) (.inr rfl) (by simp; exact .inr hx) with h1 | h1
      · exact .inl (by rw [width_spaces_append hw] at h1; exact h1)
      · exact .inr h1

end Hongdown.Model
