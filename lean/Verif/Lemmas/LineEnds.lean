import Verif.Str
import Verif.Spec.LineEnds

/-! # Lemmas for C104 -/

namespace Hongdown
open Spec

theorem stripCR_concat (s : List Char) : stripCR (s ++ ['\r']) = s := by simp [stripCR]

theorem linesGo_unixEnds : ∀ (s acc : List Char), ¬ ['\r', '\r', '\n'] <:+: s → (acc.head? = some '\r' → ¬ ['\r', '\n'] <+: s) →
    linesGo acc (unixEnds s) = linesGo acc s
  | [], _, _, _ => by rw [unixEnds]
  | c :: cs, acc, h, ha => by
    have hcs : ¬ ['\r', '\r', '\n'] <:+: cs := fun h' => h (h'.trans (List.suffix_cons c cs).isInfix)
    by_cases hc : c = '\r' ∧ cs.head? = some '\n'
    · obtain ⟨rfl, h2⟩ := hc
      obtain ⟨t, rfl⟩ : ∃ t, cs = '\n' :: t := by
        cases cs with
        | nil => simp at h2
        | cons x t => exact ⟨t, by simp at h2; rw [h2]⟩
      have ht : ¬ ['\r', '\r', '\n'] <:+: t := fun h' => hcs (h'.trans (List.suffix_cons _ t).isInfix)
      have hacc : acc.head? ≠ some '\r' := fun h' => ha h' ⟨t, rfl⟩
      have ih := linesGo_unixEnds t [] ht (by simp)
      rw [unixEnds, if_pos ⟨rfl, rfl⟩, unixEnds, if_neg (by simp)]
      simp only [linesGo, if_true, show ('\r' : Char) ≠ '\n' by decide, if_false, ih]
      congr 1
      rw [List.reverse_cons, stripCR_concat, stripCR, if_neg]
      rw [List.getLast?_reverse]
      exact hacc
    · rw [unixEnds, if_neg hc]
      by_cases hn : c = '\n'
      · subst hn
        simp only [linesGo, if_true]
        rw [linesGo_unixEnds cs [] hcs (by simp)]
      · simp only [linesGo, if_neg hn]
        refine linesGo_unixEnds cs (c :: acc) hcs ?_
        intro h1 h2
        have : c = '\r' := by simpa using h1
        subst this
        obtain ⟨t, e⟩ := h2
        exact h ⟨[], t, by rw [← e]; rfl⟩

theorem unixEnds_getLast : ∀ s : List Char, ((unixEnds s).getLast? = some '\n' ↔ s.getLast? = some '\n')
  | [] => by rw [unixEnds]
  | c :: cs => by
    have ih := unixEnds_getLast cs
    by_cases hc : c = '\r' ∧ cs.head? = some '\n'
    · rw [unixEnds, if_pos hc, ih]
      cases cs with
      | nil => simp at hc
      | cons x t => rw [List.getLast?_cons_cons]
    · rw [unixEnds, if_neg hc]
      cases cs with
      | nil => rw [unixEnds]
      | cons x t =>
        rw [List.getLast?_cons_cons, ← ih]
        cases e : unixEnds (x :: t) with
        | nil =>
          exfalso
          revert e
          clear ih hc
          induction t generalizing x with
          | nil => simp [unixEnds]
          | cons y t iht =>
            rw [unixEnds]
            split
            · exact iht y
            · simp
        | cons y u => rw [List.getLast?_cons_cons]

theorem unixEnds_crlf : ∀ s : List Char, '\r' ∉ s → unixEnds (crlf s) = s
  | [], _ => by rw [crlf, unixEnds]
  | c :: cs, h => by
    have ih := unixEnds_crlf cs (fun h' => h (by simp [h']))
    have hc : c ≠ '\r' := fun e => h (by simp [e])
    rw [crlf]
    split
    · next e => subst e; rw [unixEnds, if_pos ⟨rfl, rfl⟩, unixEnds, if_neg (by simp), ih]
    · rw [unixEnds, if_neg (by simp [hc]), ih]

theorem crlf_single : ∀ s : List Char, '\r' ∉ s → ¬ ['\r', '\r'] <:+: crlf s
  | [], _ => by rw [crlf]; simp
  | c :: cs, h => by
    have ih := crlf_single cs (fun h' => h (by simp [h']))
    have hc : c ≠ '\r' := fun e => h (by simp [e])
    rw [crlf]
    split
    · intro h'
      rw [List.infix_cons_iff, List.infix_cons_iff] at h'
      rcases h' with h' | h' | h'
      · obtain ⟨t, e⟩ := h'; simp at e
      · obtain ⟨t, e⟩ := h'; simp at e
      · exact ih h'
    · intro h'
      rw [List.infix_cons_iff] at h'
      rcases h' with h' | h'
      · obtain ⟨t, e⟩ := h'; simp at e; exact hc e.1.symm
      · exact ih h'

theorem unixEnds_self : ∀ s : List Char, '\r' ∉ s → unixEnds s = s
  | [], _ => by rw [unixEnds]
  | c :: cs, h => by
    have hc : c ≠ '\r' := fun e => h (by simp [e])
    rw [unixEnds, if_neg (by simp [hc]), unixEnds_self cs (fun h' => h (by simp [h']))]

theorem mem_crlf : ∀ {s : List Char}, '\n' ∈ s → '\r' ∈ crlf s
  | c :: cs, h => by
    rw [crlf]
    split
    · simp
    · next hc =>
      rcases List.mem_cons.1 h with e | h
      · exact absurd e.symm hc
      · exact List.mem_cons_of_mem _ (mem_crlf h)

end Hongdown
