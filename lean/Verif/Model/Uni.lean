import Verif.Str

/-!
# Unicode data as a parameter

The classes and case mappings of Rust's `char` come from Unicode tables which are
not modelled. They are a parameter of the model. Theorems state what they need.
-/

namespace Hongdown.Model

structure Uni where
  /-- `char::is_alphabetic` -/
  alphabetic : Char → Bool
  /-- `char::is_alphanumeric` -/
  alphanumeric : Char → Bool
  /-- `char::is_uppercase` -/
  uppercase : Char → Bool
  /-- `char::is_lowercase` -/
  lowercase : Char → Bool
  /-- `char::to_uppercase` (may give several characters) -/
  toUpper : Char → List Char
  /-- `char::to_lowercase` (may give several characters) -/
  toLower : Char → List Char
  /-- `str::to_lowercase` (context dependent for the Greek sigma) -/
  strLower : List Char → List Char

/-- The ASCII part of the tables, used for examples and witnesses. It agrees with
Rust on ASCII characters; other characters are in no class. -/
def asciiUni : Uni where
  alphabetic c := c.isAlpha
  alphanumeric c := c.isAlphanum
  uppercase c := c.isUpper
  lowercase c := c.isLower
  toUpper c := [c.toUpper]
  toLower c := [c.toLower]
  strLower s := s.map Char.toLower

/-- What the punctuation theorems need: quotation marks are in no letter class. -/
structure Uni.QuotesOk (u : Uni) : Prop where
  alpha : ∀ c ∈ ['\'', '‘', '’'], u.alphabetic c = false
  alnum : ∀ c ∈ ['\'', '‘', '’'], u.alphanumeric c = false

theorem asciiUni_quotesOk : asciiUni.QuotesOk := ⟨by decide, by decide⟩

end Hongdown.Model
