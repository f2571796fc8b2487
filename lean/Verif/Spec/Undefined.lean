import Verif.Model.Warn

/-!
# References without a definition

What a reference in a text is, which labels the source defines, and which references are
reported. Nothing here follows the scanners of the model: references, definitions and escapes
are said by how a text or a line is put together.
-/

namespace Hongdown.Spec
open Model

/-- A reference `[text]` or `[text][label]` as it stands in a text. -/
structure BracketRef where
  text : List Char
  label : Option (List Char)

/-- The reference as it is written. -/
def BracketRef.source (m : BracketRef) : List Char :=
  '[' :: m.text ++ [']'] ++
    match m.label with
    | none => []
    | some l => '[' :: l ++ [']']

/-- The label that must be defined: the text if there is none. -/
def BracketRef.name (m : BracketRef) : List Char :=
  match m.label with
  | none => m.text
  | some [] => m.text
  | some l => l

/-- The first bracket that closes ends the text and the label, and the text neither is empty
nor begins with a bracket. -/
structure BracketRef.Ok (m : BracketRef) : Prop where
  nonempty : m.text ≠ []
  inside : ']' ∉ m.text
  first : m.text.head? ≠ some '['
  label : ∀ l ∈ m.label, ']' ∉ l

/-- The references of a text from the left, none within another, each with its label if one
follows. -/
inductive RefsIn : List Char → List BracketRef → Prop where
  | nil : RefsIn [] []
  | skip (c : Char) (s : List Char) (ms : List BracketRef) :
      (∀ (m : BracketRef) (r : List Char), m.Ok → c :: s ≠ m.source ++ r) → RefsIn s ms → RefsIn (c :: s) ms
  | ref (m : BracketRef) (r : List Char) (ms : List BracketRef) : m.Ok →
      (m.label = none → ∀ l r', ']' ∉ l → r ≠ '[' :: l ++ ']' :: r') →
      RefsIn r ms → RefsIn (m.source ++ r) (m :: ms)

/-- Some line is `[label]: …`, possibly indented. -/
def HasDefinition (lines : List (List Char)) (label : List Char) : Prop :=
  ∃ line ∈ lines, ∃ sp rest, line = sp ++ '[' :: label ++ ']' :: ':' :: rest ∧
    (∀ c ∈ sp, isWs c = true) ∧ label ≠ [] ∧ ']' ∉ label ∧
    ∃ c ∈ rest, isWs c = false

/-- Some line is `*[label]: …`. -/
def HasAbbreviation (lines : List (List Char)) (label : List Char) : Prop :=
  ∃ line ∈ lines, ∃ rest, line = '*' :: '[' :: label ++ ']' :: ':' :: rest ∧
    label ≠ [] ∧ ']' ∉ label

/-- On the line with this number (counted from 1) the text `pat` stands first after a single
backslash. -/
def EscapedOn (lines : List (List Char)) (number : Nat) (pat : List Char) : Prop :=
  ∃ line before after, number ≠ 0 ∧ lines[number - 1]? = some line ∧
    line = before ++ '\\' :: pat ++ after ∧ before.getLast? ≠ some '\\' ∧
    ∀ a b, line = a ++ pat ++ b → before.length + 1 ≤ a.length

/-- A reference which the source neither defines nor escapes. -/
structure Unresolved (lines : List (List Char)) (number : Nat) (m : BracketRef) : Prop where
  footnote : m.name.head? ≠ some '^'
  alert : m.name.head? ≠ some '!'
  definition : ¬ HasDefinition lines m.name
  abbreviation : ¬ HasAbbreviation lines m.name
  escape : ¬ EscapedOn lines number m.source

mutual
/-- The texts of a tree with their lines, except those in code and HTML. -/
def proseOf : Node → List (Nat × List Char)
  | .mk (.text t) p cs => (p.startLine, t) :: proseOfList cs
  | .mk (.codeBlock _ _) _ _ => []
  | .mk (.code _) _ _ => []
  | .mk (.htmlBlock _) _ _ => []
  | .mk (.htmlInline _) _ _ => []
  | .mk _ _ cs => proseOfList cs

def proseOfList : List Node → List (Nat × List Char)
  | [] => []
  | n :: ns => proseOf n ++ proseOfList ns
end

/-- The references of some texts with their lines, in order. -/
inductive RefsOf : List (Nat × List Char) → List (Nat × BracketRef) → Prop where
  | nil : RefsOf [] []
  | cons (number : Nat) (t : List Char) (ts : List (Nat × List Char)) (ms : List BracketRef)
      (rest : List (Nat × BracketRef)) : RefsIn t ms → RefsOf ts rest →
      RefsOf ((number, t) :: ts) (ms.map (number, ·) ++ rest)

/-- The warning for a reference. -/
def unresolvedWarning (number : Nat) (m : BracketRef) : Warning :=
  ⟨number, "undefined reference link: [".toList ++ m.name ++ [']']⟩

/-- Only the unresolved references are reported, and each of them, in order. -/
inductive Reports (lines : List (List Char)) : List (Nat × BracketRef) → List Warning → Prop where
  | nil : Reports lines [] []
  | warn (number : Nat) (m : BracketRef) (ms : List (Nat × BracketRef)) (ws : List Warning) :
      Unresolved lines number m → Reports lines ms ws →
      Reports lines ((number, m) :: ms) (unresolvedWarning number m :: ws)
  | pass (number : Nat) (m : BracketRef) (ms : List (Nat × BracketRef)) (ws : List Warning) :
      ¬ Unresolved lines number m → Reports lines ms ws → Reports lines ((number, m) :: ms) ws

end Hongdown.Spec
