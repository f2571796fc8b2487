import Verif.Model.State
import Verif.Spec.Code

/-!
# Replacing the code of all code blocks in a document
-/

namespace Hongdown.Spec

open Model

/-- The value of a node with the code of a code block replaced by `f info code`. -/
def mapCodeValue (f : List Char → List Char → List Char) : NodeValue → NodeValue
  | .codeBlock info code => .codeBlock info (f info code)
  | v => v

mutual
/-- The tree with the code of each code block replaced by `f info code`. -/
def mapCode (f : List Char → List Char → List Char) : Node → Node
  | .mk v p cs => .mk (mapCodeValue f v) p (mapCodes f cs)

def mapCodes (f : List Char → List Char → List Char) : List Node → List Node
  | [] => []
  | n :: ns => mapCode f n :: mapCodes f ns
end

mutual
/-- The info strings and codes of the code blocks of a tree. -/
def codeBlocksOf : Node → List (List Char × List Char)
  | .mk (.codeBlock info code) _ cs => (info, code) :: codeBlocksOfList cs
  | .mk _ _ cs => codeBlocksOfList cs

def codeBlocksOfList : List Node → List (List Char × List Char)
  | [] => []
  | n :: ns => codeBlocksOf n ++ codeBlocksOfList ns
end

/-- The same context without code formatters. -/
def noFormatters (cx : Cx) : Cx := { cx with opts := { cx.opts with codeFormatters := [] }, callback := none }

/-- What the chosen formatter makes of a code block: its output if it succeeds. -/
def formattedBy {α ε : Type} (formatters : List (List Char × α)) (run : α → List Char → Except ε (List Char))
    (dflt info code : List Char) : List Char :=
  match chosenFormatter formatters dflt info with
  | none => code
  | some fm =>
    match run fm code with
    | .ok s => s
    | .error _ => code

/-- Does the chosen formatter fail on the code block? -/
def FailsOn {α ε : Type} (formatters : List (List Char × α)) (run : α → List Char → Except ε (List Char))
    (dflt info code : List Char) : Prop :=
  ∃ fm e, chosenFormatter formatters dflt info = some fm ∧ run fm code = .error e

/-- What a single function for all languages makes of a code block. It is asked unless the info
string has the word `hongdown-no-format` or there is no language. -/
def formattedByFunction (f : List Char → List Char → Option (List Char)) (dflt info code : List Char) : List Char :=
  if "hongdown-no-format".toList ∈ splitWs info ∨ languageOf dflt info = [] then code
  else (f (languageOf dflt info) code).getD code

end Hongdown.Spec
