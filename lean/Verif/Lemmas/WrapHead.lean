import Verif.Lemmas.WrapLines

/-!
# The first character of wrapped text
-/

namespace Hongdown
open Model Spec

theorem trimEnd_head {s : List Char} {c : Char} (h : s.head? = some c) (hc : isWs c = false) :
    (trimEnd s).head? = some c := by
  obtain ⟨t, ht, e⟩ := trimEnd_append s
  cases h1 : trimEnd s with
  | nil =>
    rw [h1] at e
    rw [e, List.nil_append] at h
    have := ht c (List.mem_of_mem_head? h)
    rw [hc] at this; cases this
  | cons d r =>
    rw [h1] at e
    rw [e] at h
    simpa using h

theorem joinWith_head {sep : List Char} {l : List Char} {ls : List (List Char)} {c : Char} (h : l.head? = some c) :
    (joinWith sep (l :: ls)).head? = some c := by
  cases ls with
  | nil => simpa [joinWith] using h
  | cons m ms =>
    rw [joinWith_cons _ _ (by simp)]
    cases l with
    | nil => cases h
    | cons d r => simpa using h

/-- A segment that begins with a visible character is written beginning with it. -/
theorem wrapSingle_head (w : List Char → Nat) {text pfx : List Char} {lw : Nat} {c : Char}
    (h : text.head? = some c) (hc : isWs c = false) : (wrapSingle w text [] pfx lw).head? = some c := by
  have hsp : text.head? ≠ some ' ' := by
    rw [h]; simp only [ne_eq, Option.some.injEq]; rintro rfl; revert hc; decide
  rw [wrapSingle_eq, groups_first]
  obtain ⟨sp, hs, e⟩ := tokenize_text hsp
  cases ht : tokenize text with
  | nil =>
    rw [ht] at e
    have : text = sp := by simpa [tokText] using e
    have h1 := hs c (by rw [← this]; exact List.mem_of_mem_head? h)
    exact absurd (h1 ▸ h) hsp
  | cons t ts =>
    rw [fillFirst_nil_cons]
    have key : ∀ (ts cur : List Tok), ∃ g gs, fillFirst w [] pfx lw cur ts = g :: gs ∧ cur <+: g := by
      intro ts
      induction ts with
      | nil => intro cur; exact ⟨cur, [], rfl, List.prefix_refl _⟩
      | cons t ts ih =>
        intro cur
        rw [fillFirst]
        split
        · obtain ⟨g, gs, h1, h2⟩ := ih (cur ++ [t])
          exact ⟨g, gs, h1, (List.prefix_append _ _).trans h2⟩
        · exact ⟨_, _, rfl, List.prefix_refl _⟩
    obtain ⟨g, gs, h1, v, h2⟩ := key ts [t]
    rw [h1, rawLines, List.map_cons]
    apply joinWith_head
    apply trimEnd_head _ hc
    rw [← h2]
    have hne : t.1 ≠ [] := (tokenize_ok text).1 t (by rw [ht]; simp)
    have e2 : text = t.1 ++ (t.2 ++ tokText ts ++ sp) := by
      rw [e, ht]; simp [tokText]
    obtain ⟨d, r, hd⟩ := List.exists_cons_of_ne_nil hne
    rw [e2, hd] at h
    simp [tokText, hd] at h ⊢
    exact h

theorem mergeLines_first {l : List Char} {rest : List (List Char)} {c : Char} (h : l.head? = some c) :
    (mergeLines l rest).head? = some c := by
  rw [mergeLines_eq]
  cases l with
  | nil => cases h
  | cons d r => simpa using h

theorem trim_first {s : List Char} {c : Char} (h : s.head? = some c) (hc : isWs c = false) : (trim s).head? = some c := by
  have : trimStart s = s := by
    cases s with
    | nil => rfl
    | cons d r =>
      have : d = c := by simpa using h
      subst this
      rw [trimStart, List.dropWhile_cons, hc]; rfl
  rw [trim, this]
  exact trimEnd_head h hc

theorem append_first {a b : List Char} {c : Char} (h : a.head? = some c) : (a ++ b).head? = some c := by
  cases a with
  | nil => cases h
  | cons d r => simpa using h

theorem wrapLines_extends (w : List Char → Nat) (pfx : List Char) (lw : Nat) :
    ∀ (ls : List (List Char)) (result cur : List Char), ∃ t, wrapLines w pfx lw result cur ls = result ++ t
  | [], result, cur => ⟨[], by simp [wrapLines]⟩
  | l :: rest, result, cur => by
    rw [wrapLines]
    split
    · obtain ⟨t, h⟩ := wrapLines_extends w pfx lw rest (result ++ (if result = [] then [] else ['\n']) ++ cur ++ trim l) pfx
      exact ⟨_, by rw [h]; simp only [List.append_assoc]; rfl⟩
    · exact ⟨_, by rw [List.append_assoc]⟩

theorem splitOn_first {d c : Char} {text : List Char} (h : text.head? = some c) (hd : c ≠ d) :
    ∃ l ls, splitOn d text = l :: ls ∧ l.head? = some c := by
  cases text with
  | nil => cases h
  | cons x r =>
    have : x = c := by simpa using h
    subst this
    cases h1 : splitOn d r with
    | nil => exact absurd h1 (splitOn_ne_nil _ _)
    | cons m ms => exact ⟨x :: m, ms, by rw [splitOn, if_neg hd, h1], rfl⟩

theorem wrapSegment_head (w : List Char → Nat) {text pfx : List Char} {lw : Nat} {c : Char}
    (h : text.head? = some c) (hc : isWs c = false) (hn : c ≠ nul) : (wrapSegment w text [] pfx lw).head? = some c := by
  rw [wrapSegment]
  split
  · exact wrapSingle_head w h hc
  · obtain ⟨l, ls, h1, h2⟩ := splitOn_first h hn
    rw [h1, wrapLines]
    split
    · obtain ⟨t, ht⟩ := wrapLines_extends w pfx lw ls ([] ++ (if ([] : List Char) = [] then [] else ['\n']) ++ [] ++ trim l) pfx
      rw [ht]
      exact append_first (by simpa using trim_first h2 hc)
    · simp only [if_true, List.append_nil, List.nil_append]
      exact wrapSingle_head w (mergeLines_first (trim_first h2 hc)) hc

/-- The text of a list item begins with its first visible character. -/
theorem wrapTextFirstLine_head (w : List Char → Nat) {text pfx : List Char} {lw : Nat} {c : Char}
    (h : text.head? = some c) (hc : isWs c = false) (hn : c ≠ nul) : (wrapTextFirstLine w text [] pfx lw).head? = some c := by
  have hl : c ≠ '\n' := by rintro rfl; revert hc; decide
  obtain ⟨l, ls, h1, h2⟩ := splitOn_first h hl
  rw [wrapTextFirstLine, h1]
  cases ls with
  | nil => exact wrapSegment_head w h hc hn
  | cons m ms => exact append_first (wrapSegment_head w h2 hc hn)

end Hongdown
