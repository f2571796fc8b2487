import Verif.Spec.Document
import Verif.Spec.Code

/-!
# The text of a footnote

What a footnote with several blocks is in the output, in terms of what its blocks are on their own.
-/

namespace Hongdown.Spec
open Model

/-- The texts of the blocks, each as it is on its own, without the white space after it. -/
def noteBlocks (cx : Cx) : List Node → List (List Char)
  | [] => []
  | n :: ns => trimEnd (formatted cx [] n (nextIsBracket ns)) :: noteBlocks cx ns

/-- Lines after a label: the first one stands right after the label, the others are indented by as many
spaces as the label has bytes, and empty lines stay empty. -/
def hung (label : List Char) : List (List Char) → List (List Char)
  | [] => []
  | l :: ls => (label ++ l) :: ls.map fun x => if x = [] then [] else List.replicate (byteLen label) ' ' ++ x

/-- A footnote which is written block by block (src/serializer/mod.rs:638-655): it has a code block, a
quote, a list or a table, or more than one paragraph. -/
def ByBlocks (cs : List Node) : Prop :=
  (∃ n ∈ cs, match n.value with
    | .codeBlock _ _ => True
    | .blockQuote => True
    | .list _ _ => True
    | .table _ => True
    | _ => False) ∨
  ∃ A m B n C, cs = A ++ m :: B ++ n :: C ∧ m.value = .paragraph ∧ n.value = .paragraph

end Hongdown.Spec
