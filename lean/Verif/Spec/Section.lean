import Verif.Spec.BlockText
import Verif.Str

/-!
# In which section a footnote stands
-/

namespace Hongdown.Spec
open Model

mutual
/-- The nodes of a tree in the order of the document. -/
def preorder : Node → List Node
  | .mk v p cs => .mk v p cs :: preorderList cs

def preorderList : List Node → List Node
  | [] => []
  | n :: ns => preorder n ++ preorderList ns
end

/-- The name and the line of a footnote reference. -/
def noteRef (n : Node) : Option (List Char × Nat) :=
  match n.value with
  | .footnoteReference name => some (name, n.pos.startLine)
  | _ => none

/-- The first reference to the footnote `name` is on this line. -/
def FirstReference (cs : List Node) (name : List Char) (line : Nat) : Prop :=
  ∃ before after, (preorderList cs).filterMap noteRef = before ++ (name, line) :: after ∧
    ∀ e ∈ before, e.1 ≠ name

/-- The text `out` has a definition of the footnote `name`: its label, and lines that are empty or
indented as far as that is long, and in it the characters `text` apart from those not in `keep`. -/
def HasNote (keep : Char → Bool) (name text out : List Char) : Prop :=
  ∃ s, s <:+: out ∧ ['[', '^'] ++ name ++ [']', ':', ' '] <+: s ∧
    (∀ l ∈ (splitOn '\n' s).tail, l = [] ∨
      List.replicate (byteLen (['[', '^'] ++ name ++ [']', ':', ' '])) ' ' <+: l) ∧
    (text.filter keep).Sublist (s.filter keep)

end Hongdown.Spec
