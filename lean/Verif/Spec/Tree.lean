import Verif.Model.Ast

/-!
# Where nodes may stand in a tree
-/

namespace Hongdown.Spec
open Model

/-- An item of a list. -/
def isItemLike (n : Node) : Bool :=
  match n.value with
  | .item => true
  | .taskItem _ => true
  | _ => false

/-- A list. -/
def isListValue : NodeValue → Bool
  | .list _ _ => true
  | _ => false

mutual
/-- No document inside, items only directly in lists: the shape of the parser's trees. -/
def wellPlaced : Node → Bool
  | .mk v _ cs =>
    decide (v ≠ .document) && (isListValue v || cs.all fun c => !isItemLike c) &&
      wellPlacedList cs

def wellPlacedList : List Node → Bool
  | [] => true
  | n :: ns => wellPlaced n && wellPlacedList ns
end

/-- The children of a document. -/
def wellPlacedDoc (cs : List Node) : Bool := cs.all (fun c => !isItemLike c) && wellPlacedList cs

/-- Blocks which hold blocks and write all of them. -/
def isContainer : NodeValue → Bool
  | .list _ _ => true
  | .item => true
  | .taskItem _ => true
  | .blockQuote => true
  | .alert _ _ => true
  | .descriptionList => true
  | .descriptionItem => true
  | .descriptionTerm => true
  | .descriptionDetails => true
  | _ => false

/-- `m` stands in `n`, inside of any number of containers. -/
inductive Within (m : Node) : Node → Prop where
  | here : Within m m
  | inside (v : NodeValue) (p : Pos) (cs : List Node) (c : Node) :
      isContainer v = true → c ∈ cs → Within m c → Within m (.mk v p cs)

/-- `m` stands in the inline content `cs`, inside of any number of emphases. -/
inductive Inside (m : Node) : List Node → Prop where
  | here (cs : List Node) : m ∈ cs → Inside m cs
  | emph (p : Pos) (inner cs : List Node) : .mk .emph p inner ∈ cs → Inside m inner → Inside m cs
  | strong (p : Pos) (inner cs : List Node) :
      .mk .strong p inner ∈ cs → Inside m inner → Inside m cs

end Hongdown.Spec
