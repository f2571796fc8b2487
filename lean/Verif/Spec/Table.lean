import Verif.Spec.Code
import Verif.Model.Ast

/-!
# Reading tables

How a reader of GitHub Flavored Markdown sees the rows of a table, and where the pipes
stand on a screen. A pipe separates cells unless the character before it is a backslash.
-/

namespace Hongdown.Spec
open Model (Align)

/-- The display columns of the separating pipes; `acc` is the text before, reversed. -/
def pipeColumnsGo (w : List Char → Nat) : List Char → List Char → List Nat
  | _, [] => []
  | acc, c :: cs =>
    (if c = '|' ∧ acc.head? ≠ some '\\' then [w acc.reverse] else []) ++
      pipeColumnsGo w (c :: acc) cs

def pipeColumns (w : List Char → Nat) (line : List Char) : List Nat := pipeColumnsGo w [] line

/-- The columns of the pipes around cells of the given widths with a space on both sides,
if the first pipe is in column `x`. -/
def columnsAt (x : Nat) : List Nat → List Nat
  | [] => [x]
  | w :: ws => x :: columnsAt (x + w + 3) ws

/-- Split a line at the separating pipes; `acc` is the piece so far, reversed. -/
def splitPipesGo : List Char → List Char → List (List Char)
  | acc, [] => [acc.reverse]
  | acc, c :: cs =>
    if c = '|' ∧ acc.head? ≠ some '\\' then acc.reverse :: splitPipesGo [] cs
    else splitPipesGo (c :: acc) cs

def splitPipes (line : List Char) : List (List Char) := splitPipesGo [] line

/-- Read a row that has pipes at both ends. -/
def readRow (line : List Char) : Option (List (List Char)) :=
  match splitPipes line with
  | [] => none
  | first :: rest =>
    if strip first = [] ∧ rest.getLast?.map strip = some [] then some (rest.dropLast.map strip)
    else none

/-- Read a cell of the delimiter row: one or more hyphens, with a colon on either side,
both sides or none. -/
def readDelim (cell : List Char) : Option Align :=
  let l := cell.head? = some ':'
  let r := cell.getLast? = some ':'
  let body := cell.filter (· ≠ ':')
  if body = [] ∨ body.any (· ≠ '-') ∨
      cell ≠ (if l then [':'] else []) ++ body ++ (if r then [':'] else []) then none
  else if l ∧ r then some .center
  else if l then some .left
  else if r then some .right
  else some .none

/-- `x` spaces before and `y` after a cell's content suit the alignment. -/
def PaddingFits (a : Option Align) (x y : Nat) : Prop :=
  match a with
  | some .right => y = 0
  | some .center => x = y ∨ x + 1 = y
  | _ => x = 0

/-- The number of cells of a row; pipes at the ends may be left out. -/
def cellCount (line : List Char) : Nat :=
  let ps := splitPipes line
  ps.length - (if (ps.head?.map strip) = some [] then 1 else 0) -
    (if (ps.getLast?.map strip) = some [] then 1 else 0)

/-- Only pipes, hyphens, colons and spaces. -/
def isSeparator (line : List Char) : Bool := line.all fun c => c ∈ ['|', '-', ':', ' ']

end Hongdown.Spec
