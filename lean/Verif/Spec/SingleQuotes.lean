import Verif.Spec.Apostrophe

/-!
# Single quotations (STYLE.md:478-483)
-/

namespace Hongdown.Spec
open Model

/-- All straight marks in a text are between two letters of it. -/
def OnlyInWord (u : Uni) (s : List Char) : Prop := ∀ p q, s = p ++ '\'' :: q → InWord u p q

/-- Two straight marks around `w` quote it: the first stands at the beginning of the text, after white space or after an
opening bracket, the second at the end of the text, before white space or before ASCII punctuation. The marks
before the first and between the two are those of words like `don't`. What is quoted begins with a letter that is no digit and ends with no white space, opening bracket or quotation mark. At
the beginning of a text it is no possessive. -/
structure SingleQuotation (u : Uni) (a w b : List Char) : Prop where
  before : ∀ x ∈ a.getLast?, isWs x = true ∨ x ∈ ['(', '[', '{']
  first : ∃ y ∈ w.head?, u.alphabetic y = true ∧ isAsciiDigit y = false
  last : ∃ x ∈ w.getLast?, isWs x = false ∧ x ∉ ['(', '[', '{', '"', '“', '‘']
  after : ∀ y ∈ b.head?, isWs y = true ∨ (isAsciiPunct y = true ∧ y ≠ '"')
  noS : a = [] → ¬ PossessiveS u (w ++ '\'' :: b)
  others : OnlyInWord u a ∧ OnlyInWord u w

end Hongdown.Spec
