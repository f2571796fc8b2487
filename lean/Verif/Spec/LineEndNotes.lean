import Verif.Spec.LineEnd
import Verif.Model.Warn

/-!
# The ends of the lines of footnotes
-/

namespace Hongdown.Spec
open Model

/-- The definition of a footnote of one paragraph with something to see in it. -/
def TidyNote (cx : Cx) (n : Node) : Prop :=
  ∃ name q q' is, n = .mk (.footnoteDefinition name) q [.mk .paragraph q' is] ∧ '\n' ∉ name ∧
    (∃ c ∈ (collectInlines cx is).1, isWs c = false ∧ c ≠ '\x00') ∧ ∀ r ∈ (collectInlines cx is).2, TidyRef r

/-- Source whose lines are tidy, the first not empty. -/
def TidySource (hard : Bool) (s : List Char) : Prop := TidyLines hard s ∧ ∃ c, s.head? = some c ∧ c ≠ '\n'

/-- A directive that turns formatting off for what comes after it, but for the whole file. -/
def stopsFormatting (n : Node) : Bool :=
  match n.directive with
  | some .disable => true
  | some .disableNextLine => true
  | some .disableNextSection => true
  | _ => false

end Hongdown.Spec
