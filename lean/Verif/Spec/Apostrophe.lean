import Verif.Model.Punctuation

/-!
# Apostrophes

What an apostrophe is, said without the passes that look for quotation marks. A straight mark is
given by the text `a` before it and the text `b` after it.
-/

namespace Hongdown.Spec
open Model

/-- White space, ASCII punctuation and curly marks are no letters. True of Rust's tables. -/
def MarksNoLetters (u : Uni) : Prop :=
  ∀ c, isWs c = true ∨ isAsciiPunct c = true ∨ c ∈ ['“', '”', '‘', '’'] → u.alphabetic c = false

/-- After the mark there is the `s` of a possessive: `s` or `S` and then no letter. -/
def PossessiveS (u : Uni) (b : List Char) : Prop :=
  ∃ s b', b = s :: b' ∧ (s = 's' ∨ s = 'S') ∧ ∀ c ∈ b'.head?, u.alphabetic c = false

/-- The mark is between two letters, as in `don't`. -/
def InWord (u : Uni) (a b : List Char) : Prop :=
  (∃ x ∈ a.getLast?, u.alphabetic x = true) ∧ ∃ y ∈ b.head?, u.alphabetic y = true

/-- The mark ends a word, as in `the dogs' house`: a letter before it, and white space, ASCII
punctuation other than a straight double mark, or nothing after it. -/
def WordEnd (u : Uni) (a b : List Char) : Prop :=
  (∃ x ∈ a.getLast?, u.alphabetic x = true) ∧ ∀ y ∈ b.head?, isWs y = true ∨ (isAsciiPunct y = true ∧ y ≠ '"')

/-- The mark is that of a possessive, and the character before it is a letter, an ASCII digit or a
closing bracket, or there is none, the text having begun after a link or a piece of code. -/
def Possessive (u : Uni) (a b : List Char) : Prop :=
  PossessiveS u b ∧ ∀ x ∈ a.getLast?, u.alphabetic x = true ∨ isAsciiDigit x = true ∨ x = ']' ∨ x = ')' ∨ x = '}'

/-- The character before the mark belongs to a word or to something that stands for one: it is no
white space, no opening bracket, no quotation mark and no dash. -/
def AfterWord (a : List Char) : Prop :=
  ∃ x ∈ a.getLast?, isWs x = false ∧ x ∉ ['(', '[', '{', '"', '\'', '“', '‘', '-', '–', '—']

/-- Neither dashes nor ellipses are found in the text. -/
def NoDashes (o : PunctOpts) (s : List Char) : Prop :=
  (∀ p, o.enDash = some p ∨ o.emDash = some p → ¬ p <:+: s) ∧ (o.ellipsis = true → ¬ ['.', '.', '.'] <:+: s)

end Hongdown.Spec
