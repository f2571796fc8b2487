import Verif.Model.State

/-!
# How directives that turn formatting off are written
-/

namespace Hongdown.Spec
open Model

/-- What a directive that turns formatting off is written as: a blank line, unless it is the first block of the
document, and the comment; for the rest of the file only the comment, without the space at its end. -/
def offText (first : Bool) (d : Directive) (literal : List Char) : List Char :=
  if d = .disableFile then trimEnd literal else (if first then [] else ['\n']) ++ literal

/-- The directives that turn formatting off. -/
def TurnsOff (d : Directive) : Prop :=
  d = .disable ∨ d = .disableNextLine ∨ d = .disableNextSection ∨ d = .disableFile

end Hongdown.Spec
