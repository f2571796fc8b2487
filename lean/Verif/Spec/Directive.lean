import Verif.Model.State

/-!
# Directives

What README.md says about the comments that control the formatter.
-/

namespace Hongdown.Spec
open Model (Directive)

/-- The nouns in the argument of a directive: the argument is cut at its commas, white space
around the parts and empty parts are dropped. -/
def NounList (args : List Char) (nouns : List (List Char)) : Prop :=
  ∃ parts : List (List Char), parts ≠ [] ∧ (∀ p ∈ parts, ',' ∉ p) ∧ args = joinWith [','] parts ∧
    nouns = (parts.map trim).filter fun p => p ≠ []

/-- What the body of a comment says. -/
inductive Says : List Char → Directive → Prop where
  | disableFile : Says "hongdown-disable-file".toList .disableFile
  | disableNextLine : Says "hongdown-disable-next-line".toList .disableNextLine
  | disableNextSection : Says "hongdown-disable-next-section".toList .disableNextSection
  | disable : Says "hongdown-disable".toList .disable
  | enable : Says "hongdown-enable".toList .enable
  | properNouns (args : List Char) (nouns : List (List Char)) : NounList args nouns →
      Says ("hongdown-proper-nouns:".toList ++ args) (.properNouns nouns)
  | commonNouns (args : List Char) (nouns : List (List Char)) : NounList args nouns →
      Says ("hongdown-common-nouns:".toList ++ args) (.commonNouns nouns)

end Hongdown.Spec
