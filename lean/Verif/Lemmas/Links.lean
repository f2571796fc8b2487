import Verif.Spec.Links
import Verif.Lemmas.Refs

/-!
# Lemmas for links and emphasis
-/

namespace Hongdown.Model
open Spec

mutual
theorem nodeTextContains_iff (c : Char) : ∀ n, nodeTextContains c n = true ↔ ∃ t, TextBelow t n ∧ c ∈ t
  | .mk v p cs => by
    have ih := nodesTextContain_iff c cs
    by_cases hv : ∃ t, v = .text t
    · obtain ⟨t, rfl⟩ := hv
      rw [nodeTextContains]
      simp only [List.contains_iff_mem]
      constructor
      · intro h; exact ⟨t, .here p cs, h⟩
      · rintro ⟨t', h, hc⟩
        cases h with
        | here => exact hc
        | under _ _ _ _ hv => exact absurd rfl (hv t)
    · have e : nodeTextContains c (.mk v p cs) = nodesTextContain c cs := by
        cases v <;> first | rfl | (exfalso; exact hv ⟨_, rfl⟩)
      rw [e, ih]
      constructor
      · rintro ⟨n, hn, t, ht, hc⟩
        exact ⟨t, .under v p cs n (fun t e => hv ⟨t, e⟩) hn ht, hc⟩
      · rintro ⟨t, h, hc⟩
        cases h with
        | here => exact absurd ⟨_, rfl⟩ hv
        | under _ _ _ n _ hn ht => exact ⟨n, hn, t, ht, hc⟩

theorem nodesTextContain_iff (c : Char) :
    ∀ ns, nodesTextContain c ns = true ↔ ∃ n ∈ ns, ∃ t, TextBelow t n ∧ c ∈ t
  | [] => by simp [nodesTextContain]
  | n :: ns => by
    have h1 := nodeTextContains_iff c n
    have h2 := nodesTextContain_iff c ns
    rw [nodesTextContain, Bool.or_eq_true, h1, h2]
    simp only [List.mem_cons, exists_eq_or_imp]
end

theorem readLabel_of_plain {l rest : List Char} (h : plainLabel l = true) :
    readLabel (l ++ ']' :: rest) = some (l, rest) := by
  simp only [plainLabel, Bool.and_eq_true] at h
  exact readLabel_plain rest l (by simpa using h.2)

theorem readInlineTarget_ne {rest : List Char} (h : rest.head? ≠ some '(') : readInlineTarget rest = none := by
  unfold readInlineTarget
  split
  · exact absurd rfl h
  · rfl

theorem readLink_shortcut {text rest : List Char} (h : plainLabel text = true) (hr : AfterShortcut rest) :
    readLink ('[' :: text ++ ']' :: rest) = some (text, .label text, rest) := by
  unfold readLink
  simp only [List.cons_append, readLabel_of_plain h, hr.2]
  split
  · exact absurd rfl hr.1
  · rfl

theorem readLink_collapsed {text rest : List Char} (h : plainLabel text = true) :
    readLink ('[' :: text ++ ']' :: '[' :: ']' :: rest) = some (text, .label text, rest) := by
  unfold readLink
  simp only [List.cons_append, readLabel_of_plain h, readInlineTarget]
  rw [readLabel_cons (by decide), if_pos rfl]
  rfl

theorem readLink_full {text label rest : List Char} (h : plainLabel text = true) (hl : plainLabel label = true) :
    readLink ('[' :: text ++ ']' :: '[' :: label ++ ']' :: rest) = some (text, .label label, rest) := by
  unfold readLink
  simp only [List.cons_append, List.append_assoc, readLabel_of_plain h, readInlineTarget, readLabel_of_plain hl]
  cases label with
  | nil => simp [plainLabel] at hl
  | cons a l => rfl

end Hongdown.Model
