import Verif.Spec.Apostrophe

/-!
# Which apostrophes `curly_apostrophes` is for
-/

namespace Hongdown.Spec
open Model

/-- Letters and ASCII digits are alphanumeric; white space and ASCII punctuation are not. True of Rust's tables. -/
structure AlnumOk (u : Uni) : Prop where
  letter : ∀ c, u.alphabetic c = true ∨ isAsciiDigit c = true → u.alphanumeric c = true
  other : ∀ c, isWs c = true ∨ isAsciiPunct c = true → u.alphanumeric c = false

/-- The mark ends a word before white space or the end of the text. -/
def SpaceEnd (u : Uni) (a b : List Char) : Prop :=
  (∃ x ∈ a.getLast?, u.alphabetic x = true) ∧ ∀ y ∈ b.head?, isWs y = true

/-- Two marks around `w` are those of a quotation: they stand at white space or at the ends of the text, and what is quoted
begins and ends with a letter or digit. At the beginning of a text they are not that of a possessive. -/
structure SingleQuoted (u : Uni) (a w b : List Char) : Prop where
  before : ∀ x ∈ a.getLast?, isWs x = true
  first : ∃ y ∈ w.head?, u.alphanumeric y = true
  last : ∃ x ∈ w.getLast?, u.alphanumeric x = true
  after : ∀ y ∈ b.head?, isWs y = true
  noS : a = [] → ¬ PossessiveS u (w ++ '\'' :: b)

end Hongdown.Spec
