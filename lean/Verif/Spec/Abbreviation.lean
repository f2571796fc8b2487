import Verif.Spec.Document
import Verif.Spec.Source

/-!
# Definitions of abbreviations (STYLE.md:561-569)
-/

namespace Hongdown.Spec
open Model

/-- `*[HTML]: HyperText Markup Language`, with no white space at the end. -/
def AbbreviationText (t : List Char) : Prop :=
  (∃ name meaning, t = "*[".toList ++ name ++ "]:".toList ++ meaning) ∧ ∀ c, t.getLast? = some c → isWs c = false

/-- The node is a paragraph, and where it stands the source has the text `t`, the definition of an
abbreviation. -/
def AbbreviationAt (cx : Cx) (n : Node) (t : List Char) : Prop :=
  AbbreviationText t ∧ ∃ before after children,
    joinWith ['\n'] cx.sourceLines = before ++ t ++ after ∧
    n = .mk .paragraph ⟨lineAfter before, bytesAfter before + 1, lineAfter (before ++ t), bytesAfter (before ++ t)⟩ children

/-- `t` is `src` without the white space at its ends. -/
def Stripped (src t : List Char) : Prop :=
  (∃ a b, src = a ++ t ++ b ∧ ∀ c ∈ a ++ b, isWs c = true) ∧ (∀ c, t.head? = some c → isWs c = false) ∧
    ∀ c, t.getLast? = some c → isWs c = false

/-- The source is made of lines. -/
def SourceLines (cx : Cx) : Prop := cx.sourceLines ≠ [] ∧ ∀ l ∈ cx.sourceLines, '\n' ∉ l

end Hongdown.Spec
