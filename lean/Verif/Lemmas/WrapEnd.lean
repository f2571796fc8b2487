import Verif.Lemmas.WrapText

/-!
# The last character of a wrapped text
-/

set_option linter.unusedSimpArgs false

namespace Hongdown
open Model Spec

theorem getLast_snoc_iff {s : List Char} {c : Char} : s.getLast? = some c ↔ ∃ u, s = u ++ [c] := by
  constructor
  · intro h
    cases hs : s.reverse with
    | nil => rw [List.reverse_eq_nil_iff.mp hs] at h; cases h
    | cons d r =>
      have : s = r.reverse ++ [d] := by rw [← List.reverse_reverse s, hs]; simp
      rw [this, List.getLast?_append] at h
      simp at h
      exact ⟨r.reverse, by rw [this, h]⟩
  · rintro ⟨u, rfl⟩
    rw [List.getLast?_append]
    simp

theorem getLast_append_some {a b : List Char} {c : Char} (h : b.getLast? = some c) :
    (a ++ b).getLast? = some c := by
  rw [List.getLast?_append, h]; rfl

theorem trimEnd_last {s : List Char} {c : Char} (h : s.getLast? = some c) (hc : isWs c = false) :
    (trimEnd s).getLast? = some c := by
  rw [trimEnd_of_getLast (by intro d hd; rw [h] at hd; cases hd; exact hc)]
  exact h

theorem trim_last {s : List Char} {c : Char} (h : s.getLast? = some c) (hc : isWs c = false) :
    (trim s).getLast? = some c := by
  refine trimEnd_last ?_ hc
  obtain ⟨a, ha, e⟩ := trimStart_append s
  cases hl : (trimStart s).getLast? with
  | some d =>
    rw [e] at h
    rw [getLast_append_some hl] at h
    rw [← h]
  | none =>
    have : trimStart s = [] := by simpa using hl
    rw [this, List.append_nil] at e
    rw [e] at h
    have := ha c (List.mem_of_getLast? h)
    rw [hc] at this; cases this

theorem wrapSingle_end (w : List Char → Nat) {text fp pfx : List Char} {lw : Nat} {c : Char}
    (h : text.getLast? = some c) (hc : isWs c = false) :
    (wrapSingle w text fp pfx lw).getLast? = some c := by
  obtain ⟨u, rfl⟩ := getLast_snoc_iff.mp h
  have hsp : c ≠ ' ' := by rintro rfl; revert hc; decide
  have hstep : ∀ st : WrapSt, (wrapStep w (w fp) pfx lw st c).token.getLast? = some c := by
    intro st
    rw [wrapStep]
    repeat' split
    all_goals first
      | exact absurd ‹c = ' '› hsp
      | simp [List.getLast?_append]
  have ht : ((u ++ [c]).foldl (wrapStep w (w fp) pfx lw) (wrapInit fp)).token.getLast? = some c := by
    rw [List.foldl_append]
    exact hstep _
  rw [wrapSingle]
  generalize (u ++ [c]).foldl (wrapStep w (w fp) pfx lw) (wrapInit fp) = st at ht ⊢
  have hne : st.token ≠ [] := by intro h0; rw [h0] at ht; cases ht
  rw [if_pos hne]
  refine getLast_append_some (trimEnd_last ?_ hc)
  rw [addToken]
  repeat' split
  all_goals (simp only [List.append_nil]; exact getLast_append_some ht)

theorem merge_end {l : List Char} {rest : List (List Char)} {c : Char} (hc : isWs c = false)
    (h : ((l :: rest).getLast (by simp)).getLast? = some c) :
    (mergeLines (trim l) rest).getLast? = some c := by
  rw [mergeLines_eq]
  induction rest generalizing l with
  | nil => simpa using trim_last h hc
  | cons m rest ih =>
    rw [List.getLast_cons (by simp)] at h
    have := ih h
    rw [List.flatMap_cons, List.cons_append]
    exact getLast_append_some (getLast_append_some (a := [' ']) this)

theorem wrapLines_end (w : List Char → Nat) (pfx : List Char) (lw : Nat) {c : Char} (hc : isWs c = false) :
    ∀ (ls : List (List Char)) (hne : ls ≠ []) (result cur : List Char), (ls.getLast hne).getLast? = some c →
      (wrapLines w pfx lw result cur ls).getLast? = some c := by
  intro ls
  induction ls with
  | nil => intro h; exact absurd rfl h
  | cons l rest ih =>
    intro hne result cur h
    rw [wrapLines]
    split
    · cases rest with
      | nil => exact getLast_append_some (trim_last h hc)
      | cons m rest => exact ih (by simp) _ _ (by rwa [List.getLast_cons (by simp)] at h)
    · exact getLast_append_some (wrapSingle_end w (merge_end hc h) hc)

theorem splitOn_end {d c : Char} {text : List Char} (h : text.getLast? = some c) (hd : c ≠ d) :
    ((splitOn d text).getLast (splitOn_ne_nil d text)).getLast? = some c := by
  obtain ⟨u, rfl⟩ := getLast_snoc_iff.mp h
  obtain ⟨i, l, _, h2⟩ := splitOn_append_right (c := d) (t := [c]) (by simpa using fun e => hd e.symm) u
  simp only [h2, List.getLast_concat]
  exact getLast_append_some (b := [c]) rfl

theorem wrapSegment_end (w : List Char → Nat) {text fp pfx : List Char} {lw : Nat} {c : Char}
    (h : text.getLast? = some c) (hc : isWs c = false) (hn : c ≠ nul) :
    (wrapSegment w text fp pfx lw).getLast? = some c := by
  rw [wrapSegment]
  split
  · exact wrapSingle_end w h hc
  · exact wrapLines_end w pfx lw hc _ (splitOn_ne_nil _ _) _ _ (splitOn_end h hn)

theorem joinWith_end (sep : List Char) {c : Char} : ∀ (ls : List (List Char)) (hne : ls ≠ []),
    (ls.getLast hne).getLast? = some c → (joinWith sep ls).getLast? = some c := by
  intro ls
  induction ls with
  | nil => intro h; exact absurd rfl h
  | cons l rest ih =>
    intro hne h
    cases rest with
    | nil => exact h
    | cons m rest =>
      rw [joinWith_cons _ _ (by simp)]
      exact getLast_append_some (ih (by simp) (by rwa [List.getLast_cons (by simp)] at h))

theorem wrapText_end (w : List Char → Nat) {text pfx : List Char} {lw : Nat} {c : Char}
    (h : text.getLast? = some c) (hc : isWs c = false) (hn : c ≠ nul) :
    (wrapText w text pfx lw).getLast? = some c := by
  rw [wrapText_eq]
  refine joinWith_end _ _ (by simp [splitOn_ne_nil]) ?_
  rw [List.getLast_map]
  exact wrapSegment_end w (splitOn_end h (by rintro rfl; revert hc; decide)) hc hn

end Hongdown
