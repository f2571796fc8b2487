import Verif.Model.Ast
import Verif.Model.Options
import Verif.Spec.Refs

/-!
# Lists

What README.md says about list markers, and how CommonMark (sections 5.2 and 5.3) reads them.
-/

namespace Hongdown.Spec
open Model

/-- The marker of item `k` of an ordered list (README.md, "Lists"): the number, the delimiter
for the nesting level, at least one space; as wide as configured if the number fits. -/
def IsOrderedMarker (o : Options) (depth k : Nat) (m : List Char) : Prop :=
  ∃ digits gap, m = digits ++ (if depth % 2 = 1 then o.oddLevelMarker else o.evenLevelMarker) ::
      List.replicate gap ' ' ∧
    decimal digits = some k ∧ (k ≠ 0 → digits.head? ≠ some '0') ∧
    (digits.length + 2 ≤ o.orderedListIndentWidth → m.length = o.orderedListIndentWidth) ∧
    (o.orderedListIndentWidth < digits.length + 2 → gap = 1)

/-- The marker of an item of a bullet list. -/
def IsBulletMarker (o : Options) (m : List Char) : Prop :=
  m = List.replicate o.leadingSpaces ' ' ++ o.unorderedMarker ::
    List.replicate o.trailingSpaces ' '

/-- The marker of item `k` of a list. -/
def IsMarker (o : Options) (type : ListType) (depth k : Nat) (m : List Char) : Prop :=
  match type with
  | .ordered => IsOrderedMarker o depth k m
  | .bullet => IsBulletMarker o m

/-- The check box of a task. -/
def IsBox (n : Node) (box : List Char) : Prop :=
  match n.value with
  | .taskItem none => box = "[ ] ".toList
  | .taskItem (some _) => box = "[x] ".toList
  | _ => box = []

/-- The start of a list item: the columns of the marker and of the content, the number and the
marker character. -/
structure ItemStart where
  column : Nat
  number : Option Nat
  marker : Char
  content : Nat
  deriving DecidableEq

/-- The column of the content after a marker that ends in column `col` (section 5.2, rules 1 to
3): after one to four spaces; after one space if more follow (then the item starts with indented
code) or if the line ends here. -/
def contentColumn (col : Nat) (rest : List Char) : Option Nat :=
  let gap := (rest.takeWhile (· = ' ')).length
  if rest.drop gap = [] then some (col + 1)
  else if gap = 0 then none
  else if gap ≤ 4 then some (col + gap)
  else some (col + 1)

/-- Read the start of a list item in a line of spaces and text (tabs are not read). The caller
has to know that the line is no thematic break. -/
def readItem (line : List Char) : Option ItemStart :=
  let n := (line.takeWhile (· = ' ')).length
  let rest := line.drop n
  let digits := rest.takeWhile fun c => 48 ≤ c.toNat && c.toNat ≤ 57
  match rest.drop digits.length with
  | [] => none
  | c :: rest =>
    if digits = [] then
      if c = '-' ∨ c = '*' ∨ c = '+' then (contentColumn (n + 1) rest).map (⟨n, none, c, ·⟩)
      else none
    else if digits.length ≤ 9 ∧ (c = '.' ∨ c = ')') then
      (contentColumn (n + digits.length + 1) rest).map (⟨n, decimal digits, c, ·⟩)
    else none

/-- A block whose first line starts in column `col` continues an item with content in column
`content`, and is no indented code there. -/
def StandsIn (content col : Nat) : Prop := content ≤ col ∧ col ≤ content + 3

/-- A line with a marker and nothing else. If a blank line follows, the item is empty (section
5.2, rule 3: "a list item can begin with at most one blank line"). -/
def IsEmptyItem (line : List Char) : Prop :=
  ∃ s, readItem line = some s ∧ (line.drop (s.content - 1)).all (· = ' ') = true

instance (content col : Nat) : Decidable (StandsIn content col) := by
  unfold StandsIn; infer_instance

end Hongdown.Spec
