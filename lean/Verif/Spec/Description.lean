import Verif.Spec.Quote

/-!
# Description lists

What STYLE.md:549-560 says about description lists: a colon and three spaces before the description.
-/

namespace Hongdown.Spec
open Model

/-- A line of a description after the first: blank, or with the four columns of the marker. -/
def Hanging (l : List Char) : Prop := (∀ c ∈ l, c = ' ') ∨ "    ".toList <+: l

/-- The text of a description: the marker, and then only lines below the description. -/
def Described (text : List Char) : Prop :=
  ∃ l ls, text = unlines ((":   ".toList ++ l) :: ls) ∧ '\n' ∉ l ∧ ∀ x ∈ ls, '\n' ∉ x ∧ Hanging x

mutual
/-- Blocks whose lines all stay below the description: paragraphs, code, and lists of them. -/
def Describable (cx : Cx) : Node → Prop
  | .mk v p cs =>
    match v with
    | .paragraph => NoAbbreviation cx p
    | .codeBlock info _ => '\n' ∉ info
    | .list _ _ => cs ≠ [] ∧ cs.all isItemLike = true ∧ DescribableList cx cs
    | .item => cs.all (fun n => !isItemLike n) = true ∧ DescribableList cx cs
    | .taskItem _ => cs.all (fun n => !isItemLike n) = true ∧ DescribableList cx cs
    | _ => False

def DescribableList (cx : Cx) : List Node → Prop
  | [] => True
  | n :: ns => Describable cx n ∧ DescribableList cx ns
end

/-- The texts with `sep` between them. -/
def joined (sep : List Char) : List (List Char) → List Char
  | [] => []
  | [t] => t
  | t :: ts => t ++ sep ++ joined sep ts

end Hongdown.Spec
