import Verif.Spec.Lists

/-!
# Task items

How GitHub Flavored Markdown (section 5.3) reads the check box of a task: an item whose text begins
with `[ ]`, `[x]` or `[X]` and a space.
-/

namespace Hongdown.Spec

/-- The mark of the check box that the text begins with. -/
def boxAt : List Char → Option Char
  | '[' :: c :: ']' :: ' ' :: _ => if c = ' ' ∨ c = 'x' ∨ c = 'X' then some c else none
  | _ => none

/-- The mark of the task in a line: the line begins an item whose content begins with a check
box. -/
def readTask (line : List Char) : Option Char :=
  (readItem line).bind fun s => boxAt (line.drop s.content)

end Hongdown.Spec
