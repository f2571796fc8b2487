import Verif.Lemmas.Escape

/-!
# Escaping: C01–C05, C58
-/

namespace Hongdown.Props
open Model Spec

/-- **C01.** Escaped text denotes the text it was made from. -/
theorem c01_escape_text_roundtrip (t : List Char) : unescape (escapeText t) = t :=
  unescape_escapeTextGo t none

example : escapeText "a*b [x](y) c\\d".toList = "a\\*b \\[x\\](y) c\\\\d".toList := by decide
example : unescape "a\\*b \\[x\\](y) c\\\\d \\q".toList = "a*b [x](y) c\\d \\q".toList := by decide

/-- **C01.** Consequently escaping is injective: different texts never come out the same. -/
theorem c01_escape_text_injective (t u : List Char) (h : escapeText t = escapeText u) : t = u := by
  rw [← c01_escape_text_roundtrip t, h, c01_escape_text_roundtrip]

/-- **C02.** No `*`, `_`, backtick or backslash is left live. -/
theorem c02_no_live_delimiter (t : List Char) :
    ∀ c ∈ liveChars (escapeText t), c ≠ '*' ∧ c ≠ '_' ∧ c ≠ '\\' ∧ c ≠ '`' :=
  fun c h => liveChars_escapeTextGo t none c h

example : liveChars "a*\\*`".toList = "a*`".toList := by decide
example : liveChars (escapeText "a*\\*`".toList) = "a".toList := by decide

/-- **C03.** The general claim is false: a literal with a space at both ends loses them. -/
theorem c03_code_span_roundtrip_false :
    ¬ ∀ c : List Char, c ≠ [] → '\n' ∉ c → readCodeSpan (formatCodeSpan c) = some (c, []) := by
  intro h
  exact absurd (h [' ', 'a', ' '] (by decide) (by decide)) (by decide)

/-- **C03 (partial).** Full statement: every non-empty newline-free literal reads back
(`c03_code_span_roundtrip_false` refutes it). What holds: exactly the literals that
do not have a space at both ends around something else read back, whatever follows. -/
theorem c03_code_span_roundtrip_partial (c rest : List Char) (hc : c ≠ [])
    (hr : rest.head? ≠ some '`') :
    readCodeSpan (formatCodeSpan c ++ rest) = some (c, rest) ↔
      ¬ (c.head? = some ' ' ∧ c.getLast? = some ' ' ∧ ∃ x ∈ c, x ≠ ' ') := by
  have hm : (if maxBackticksGo 0 0 c > 0 then maxBackticksGo 0 0 c + 1 else 1)
      = maxBackticksGo 0 0 c + 1 := by split <;> omega
  unfold formatCodeSpan
  simp only [hc, if_false, hm]
  split
  · rename_i hp
    simp only [Bool.or_eq_true, decide_eq_true_eq] at hp
    have key := readCodeSpan_body (maxBackticksGo 0 0 c + 1) (by omega) ([' '] ++ c ++ [' ']) rest
      (by simp) (by simp) (by rw [List.getLast?_append]; simp)
      (by
        rw [maxBackticksGo_append_space]
        simp [maxBackticksGo]) hr
    have hany : ∃ x ∈ c, x = '`' := by
      rcases hp with hp | hp
      · exact ⟨'`', List.mem_of_head? hp, rfl⟩
      · exact ⟨'`', List.mem_of_getLast? hp, rfl⟩
    have hstrip : stripCodeSpaces ([' '] ++ c ++ [' ']) = c := by
      unfold stripCodeSpaces
      obtain ⟨x, hx, rfl⟩ := hany
      rw [if_pos ⟨by simp, by rw [List.getLast?_append]; simp,
        by simpa using ⟨'`', hx, by decide⟩⟩]
      simp
    rw [hstrip] at key
    have e : List.replicate (maxBackticksGo 0 0 c + 1) '`' ++ [' '] ++ c ++ [' '] ++
        List.replicate (maxBackticksGo 0 0 c + 1) '`' ++ rest =
        List.replicate (maxBackticksGo 0 0 c + 1) '`' ++ ([' '] ++ c ++ [' ']) ++
        List.replicate (maxBackticksGo 0 0 c + 1) '`' ++ rest := by simp
    rw [e, key]
    simp only [true_iff]
    rintro ⟨h1, h2, -⟩
    rcases hp with hp | hp
    · rw [h1] at hp; exact absurd hp (by decide)
    · rw [h2] at hp; exact absurd hp (by decide)
  · rename_i hp
    simp only [Bool.or_eq_true, decide_eq_true_eq, not_or] at hp
    rw [readCodeSpan_body (maxBackticksGo 0 0 c + 1) (by omega) c rest hc hp.1 hp.2 (by omega) hr]
    unfold stripCodeSpaces
    by_cases hs : c.head? = some ' ' ∧ c.getLast? = some ' ' ∧ c.any (· ≠ ' ')
    · rw [if_pos hs]
      have hs' : c.head? = some ' ' ∧ c.getLast? = some ' ' ∧ ∃ x ∈ c, x ≠ ' ' := by simpa using hs
      simp only [hs', not_true, iff_false, and_self, Option.some.injEq, Prod.mk.injEq, and_true]
      intro h
      have h1 := congrArg List.length h
      have h2 : 0 < c.length := List.length_pos_iff.mpr hc
      simp only [List.length_dropLast, List.length_tail] at h1
      omega
    · rw [if_neg hs]
      simpa using hs

-- the content has runs of one and two backticks and ends in a backtick
example : formatCodeSpan "a``b`".toList = "``` a``b` ```".toList := by decide
example : readCodeSpan "``` a``b` ``` x".toList = some ("a``b`".toList, " x".toList) := by decide

/-- **C04.** Exactly the strings of the form ticks, body, the same number of ticks,
with a body that is not empty and has no tick at its ends, are accepted. -/
theorem c04_valid_code_span_iff (s : List Char) :
    isValidCodeSpan s = true ↔
      ∃ (n : Nat) (body : List Char), 0 < n ∧ body ≠ [] ∧ body.head? ≠ some '`' ∧
        body.getLast? ≠ some '`' ∧ s = List.replicate n '`' ++ body ++ List.replicate n '`' :=
  isValidCodeSpan_iff s

/-- **C04.** What `format_code_span` writes is always accepted. -/
theorem c04_formatted_is_valid (c : List Char) (hc : c ≠ []) :
    isValidCodeSpan (formatCodeSpan c) = true := by
  rw [c04_valid_code_span_iff]
  unfold formatCodeSpan
  simp only [hc, if_false]
  split
  · refine ⟨if maxBackticksGo 0 0 c > 0 then maxBackticksGo 0 0 c + 1 else 1,
      [' '] ++ c ++ [' '], by split <;> omega, by simp, by simp,
      by rw [List.getLast?_append]; simp, by simp only [List.append_assoc]⟩
  · rename_i hp
    simp only [Bool.or_eq_true, decide_eq_true_eq, not_or] at hp
    exact ⟨if maxBackticksGo 0 0 c > 0 then maxBackticksGo 0 0 c + 1 else 1, c,
      by split <;> omega, hc, hp.1, hp.2, rfl⟩

example : isValidCodeSpan "``a`b``".toList = true ∧ isValidCodeSpan "``a`".toList = false ∧
    isValidCodeSpan "``".toList = false := by decide

/-- **C04.** Acceptance does not mean that the slice is one code span: `` `a` b `c` `` is
accepted although a code span ends after three characters. -/
theorem c04_valid_not_sufficient :
    isValidCodeSpan "`a` b `c`".toList = true ∧
      readCodeSpan "`a` b `c`".toList = some (['a'], " b `c`".toList) := by decide

/-- **C05.** No live pipe is left, under either reading of GFM. -/
theorem c05_no_live_pipe (s : List Char) :
    livePipes (escapeTableCell s) = 0 ∧ barePipes none (escapeTableCell s) = 0 := by
  constructor
  · refine cellCases (P := fun s => livePipes (escapeTableCell s) = 0) rfl rfl ?_ ?_ s
    · intro d rest ih
      rw [escapeTableCell_bs, livePipes_bs, ih]
    · intro c rest hc ih
      by_cases hp : c = '|'
      · subst hp; rw [escapeTableCell_pipe, livePipes_bs, ih]
      · rw [escapeTableCell_other _ hc hp, livePipes_other _ hc, ih]; simp [hp]
  · suffices h : ∀ s, ∀ p, barePipes p (escapeTableCell s) = 0 from h s none
    refine cellCases (P := fun s => ∀ p, barePipes p (escapeTableCell s) = 0)
      (fun _ => rfl) (fun p => by simp [escapeTableCell, barePipes]) ?_ ?_
    · intro d rest ih p
      rw [escapeTableCell_bs]; simp [barePipes, ih]
    · intro c rest hc ih p
      by_cases hp : c = '|'
      · subst hp; rw [escapeTableCell_pipe]; simp [barePipes, ih]
      · rw [escapeTableCell_other _ hc hp]; simp [barePipes, ih, hp]

/-- **C05.** Text without live pipes is left alone, and nothing else is. -/
theorem c05_fixed_iff (s : List Char) : escapeTableCell s = s ↔ livePipes s = 0 := by
  constructor
  · intro h
    have := escapeTableCell_length s
    rw [h] at this
    omega
  · refine cellCases (P := fun s => livePipes s = 0 → escapeTableCell s = s)
      (fun _ => rfl) (fun _ => rfl) ?_ ?_ s
    · intro d rest ih h
      rw [livePipes_bs] at h
      rw [escapeTableCell_bs, ih h]
    · intro c rest hc ih h
      rw [livePipes_other _ hc] at h
      by_cases hp : c = '|'
      · subst hp; simp at h
      · rw [escapeTableCell_other _ hc hp, ih (by omega)]

/-- **C05.** Escaping twice is escaping once. -/
theorem c05_idempotent (s : List Char) :
    escapeTableCell (escapeTableCell s) = escapeTableCell s :=
  (c05_fixed_iff _).mpr (c05_no_live_pipe s).1

/-- **C05.** The cell's text is unchanged, and the input is what remains after deleting
some characters: only additions happen, one per live pipe. -/
theorem c05_text_preserved (s : List Char) :
    cellText (escapeTableCell s) = cellText s ∧ s.Sublist (escapeTableCell s) ∧
      (escapeTableCell s).length = s.length + livePipes s := by
  refine ⟨?_, ?_, escapeTableCell_length s⟩
  · refine cellCases (P := fun s => cellText (escapeTableCell s) = cellText s) rfl rfl ?_ ?_ s
    · intro d rest ih
      rw [escapeTableCell_bs, cellText_bs, cellText_bs, ih]
    · intro c rest hc ih
      by_cases hp : c = '|'
      · subst hp; rw [escapeTableCell_pipe, cellText_bs, cellText_other _ hc, ih]; rfl
      · rw [escapeTableCell_other _ hc hp, cellText_other _ hc, cellText_other _ hc, ih]
  · refine cellCases (P := fun s => s.Sublist (escapeTableCell s)) (by simp [escapeTableCell])
      (by simp [escapeTableCell]) ?_ ?_ s
    · intro d rest ih
      rw [escapeTableCell_bs]; exact (ih.cons_cons _).cons_cons _
    · intro c rest hc ih
      by_cases hp : c = '|'
      · subst hp; rw [escapeTableCell_pipe]; exact (ih.cons_cons _).cons _
      · rw [escapeTableCell_other _ hc hp]; exact ih.cons_cons _

example : escapeTableCell "a|b\\|c\\\\|".toList = "a\\|b\\|c\\\\\\|".toList := by decide
example : livePipes "a|b\\|c\\\\|".toList = 2 := by decide

/-- **C58.** Escaped text can still contain a link: the first brackets of a run are not
escaped. -/
theorem c58_escape_text_link_false :
    ¬ ∀ t, mayFormLink 0 (escapeText t) = false := by
  intro h
  exact absurd (h "[[[a]](b)".toList) (by decide)

example : escapeText "[[[a]](b)".toList = "[[\\[a]](b)".toList := by decide

/-- **C58 (partial).** Full statement: `mayFormLink 0 (escapeText t) = false` for every
`t` (refuted above). It holds unless the text has both two adjacent opening brackets and
two adjacent closing brackets followed by `(` or `[`. -/
theorem c58_escape_text_no_link_partial (t : List Char)
    (h : ¬ (['[', '['] <:+: t ∧ ([']', ']', '('] <:+: t ∨ [']', ']', '['] <:+: t))) :
    mayFormLink 0 (escapeText t) = false := by
  by_cases h1 : ['[', '['] <:+: t
  · have h2 : ¬ ([']', ']', '('] <:+: t ∨ [']', ']', '['] <:+: t) := fun hh => h ⟨h1, hh⟩
    rw [not_or] at h2
    exact mayFormLink_escapeTextGo_close t none 0 (fun _ => rfl) h2.1 h2.2
  · exact mayFormLink_escapeTextGo t none h1

example : escapeText "[[a](b) [c]](d)".toList = "[\\[a\\](b) \\[c]](d)".toList := by decide
example : escapeText "[[a](b) [c][d]".toList = "[\\[a\\](b) \\[c\\]\\[d]".toList := by decide

end Hongdown.Props
