import Verif.Spec.Nested
import Verif.Spec.Words

/-!
# Text that fits the line width

Independent of the model: what it means that the paragraphs of a document fit a line width.
-/

namespace Hongdown.Spec

/-- What is needed of a display width where there are block quotes: their marker takes one column. -/
structure FitWidth (w : List Char → Nat) : Prop extends WidthOk w where
  marker : w ['>'] = 1

/-- A line of text that begins at column `n` fits the width `lw`, where `w` measures text. -/
def Fits (w : List Char → Nat) (lw n : Nat) (l : List Char) : Prop := n + w l ≤ lw

/-- A line of text that begins at column `n` fits, or is a single word, with all of a code span being
part of a word. -/
def FitsOrWord (w : List Char → Nat) (lw n : Nat) (l : List Char) : Prop := Fits w lw n l ∨ Unbreakable l

/-- The lines of a paragraph fit: the first is taken to begin at column `first`, the others at
column `n`. -/
def ParFits (ok : Nat → List Char → Prop) (first n : Nat) : List (List Char) → Prop
  | [] => True
  | l :: ls => ok first l ∧ ∀ m ∈ ls, ok n m

/-- The paragraphs of a block quote fit, two columns being taken up by its marker. -/
def FitsQuote (ok : Nat → List Char → Prop) : List CoreBlock → Prop
  | [] => True
  | .paragraph ls :: bs => ParFits ok 2 2 ls ∧ FitsQuote ok bs
  | _ :: bs => FitsQuote ok bs

mutual

/-- The paragraphs of a block in items nested `d` deep fit, four columns being taken up by each
item; `k` of them are counted in the first line of a paragraph. -/
def FitsTree (ok : Nat → List Char → Prop) (k d : Nat) : TreeBlock → Prop
  | .leaf _ (.paragraph ls) => ParFits ok (k * d) (4 * d) ls
  | .leaf _ _ => True
  | .quote _ _ bs => FitsQuote ok bs
  | .list _ _ _ items => FitsItems ok k (d + 1) items
  | .table _ _ _ => True

def FitsItems (ok : Nat → List Char → Prop) (k d : Nat) : List (List TreeBlock) → Prop
  | [] => True
  | it :: its => FitsBlocks ok k d it ∧ FitsItems ok k d its

def FitsBlocks (ok : Nat → List Char → Prop) (k d : Nat) : List TreeBlock → Prop
  | [] => True
  | b :: bs => FitsTree ok k d b ∧ FitsBlocks ok k d bs

end

/-- The lines of the paragraphs among blocks. -/
def paragraphLines : List CoreBlock → List (List (List Char))
  | [] => []
  | .paragraph ls :: bs => ls :: paragraphLines bs
  | _ :: bs => paragraphLines bs

end Hongdown.Spec
