import Verif.Spec.Code
import Verif.Spec.Tree
import Verif.Model.Inline

/-!
# Block quotes

What README.md says about block quotes: every line starts with the marker of its quote.
-/

namespace Hongdown.Spec
open Model

/-- The text consists of lines which all start with `m`. -/
def Prefixed (m text : List Char) : Prop :=
  ∃ ls, text = unlines ls ∧ ∀ l ∈ ls, '\n' ∉ l ∧ m <+: l

/-- The marker of `n + 1` quotes, one inside the other. -/
def quoteMark : Nat → List Char
  | 0 => ['>']
  | n + 1 => '>' :: ' ' :: quoteMark n

/-- The source is no definition of an abbreviation, `*[HTML]: …`. -/
def NoAbbreviation (cx : Cx) (p : Pos) : Prop :=
  ∀ s, extractSource cx p = some s → ¬ ("*[".toList <+: trim s ∧ "]:".toList <:+: trim s)

/-- An item with a paragraph, a list, or a paragraph and a list right after it. -/
def itemShape : List Node → Bool
  | [] => true
  | [.mk .paragraph _ _] => true
  | [.mk (.list _ _) _ _] => true
  | [.mk .paragraph p _, .mk (.list _ _) q _] => decide (q.startLine ≤ p.endLine + 1)
  | _ => false

mutual
/-- Blocks which keep the quote marker on every line: paragraphs and block quotes; with `flat`
also code, thematic breaks, tables without line ends in cells, and tight lists of simple items. -/
def Quotable (cx : Cx) (flat : Bool) : Node → Prop
  | .mk v p cs =>
    match v with
    | .paragraph => NoAbbreviation cx p
    | .blockQuote => QuotableList cx flat cs
    | .alert _ _ => QuotableList cx flat cs
    | .codeBlock info _ => flat = true ∧ '\n' ∉ info
    | .thematicBreak => flat = true
    | .table _ => flat = true ∧
        ∀ row ∈ cs, ∀ cell ∈ row.children, '\n' ∉ (collectInlines cx cell.children).1
    | .list _ tight =>
      flat = true ∧ tight = true ∧ cs.all isItemLike = true ∧ QuotableList cx flat cs
    | .item => flat = true ∧ itemShape cs = true ∧ QuotableList cx flat cs
    | .taskItem _ => flat = true ∧ itemShape cs = true ∧ QuotableList cx flat cs
    | _ => False

def QuotableList (cx : Cx) (flat : Bool) : List Node → Prop
  | [] => True
  | n :: ns => Quotable cx flat n ∧ QuotableList cx flat ns
end

end Hongdown.Spec
