import Verif.Spec.Refs
import Verif.Model.Ast

/-!
# Reading links and emphasis (CommonMark 6.2, 6.3)
-/

namespace Hongdown.Spec
open Model

/-- Where a link leads. -/
inductive Target where
  | inline (url title : List Char)
  | label (l : List Char)
  deriving DecidableEq

/-- A link at the front of `s`: its text, where it leads and what comes after. The text has no
brackets besides escaped ones. An inline target comes first, then a full or collapsed reference;
a shortcut is not followed by a label. -/
def readLink (s : List Char) : Option (List Char × Target × List Char) :=
  match s with
  | '[' :: s =>
    match readLabel s with
    | none => none
    | some (text, rest) =>
      match readInlineTarget rest with
      | some ((url, title), rest) => some (text, .inline url title, rest)
      | none =>
        match rest with
        | '[' :: rest' =>
          match readLabel rest' with
          | some ([], rest) => some (text, .label text, rest)
          | some (l, rest) => some (text, .label l, rest)
          | none => some (text, .label text, rest)
        | _ => some (text, .label text, rest)
  | _ => none

/-- What may follow a shortcut reference. -/
def AfterShortcut (rest : List Char) : Prop := rest.head? ≠ some '[' ∧ readInlineTarget rest = none

/-- `t` is a text somewhere below a node. -/
inductive TextBelow (t : List Char) : Node → Prop
  | here (p : Pos) (cs : List Node) : TextBelow t (.mk (.text t) p cs)
  | under (v : NodeValue) (p : Pos) (cs : List Node) (c : Node) :
      (∀ t, v ≠ .text t) → c ∈ cs → TextBelow t c → TextBelow t (.mk v p cs)

/-- A run of delimiters between two characters (`none` is the beginning or end of a line) is
left-flanking; `ws` and `punct` say what is white space and punctuation. -/
def LeftFlanking (ws punct : Char → Bool) (prev next : Option Char) : Prop :=
  (∃ c, next = some c ∧ ws c = false ∧
    (punct c = false ∨ ∀ d, prev = some d → ws d = true ∨ punct d = true))

/-- The same from the other side. -/
def RightFlanking (ws punct : Char → Bool) (prev next : Option Char) : Prop :=
  LeftFlanking ws punct next prev

/-- A run of the delimiter can open emphasis. -/
def CanOpen (ws punct : Char → Bool) (delim : Char) (prev next : Option Char) : Prop :=
  LeftFlanking ws punct prev next ∧
    (delim = '_' → ¬ RightFlanking ws punct prev next ∨ ∃ c, prev = some c ∧ punct c = true)

/-- A run of the delimiter can close emphasis. -/
def CanClose (ws punct : Char → Bool) (delim : Char) (prev next : Option Char) : Prop :=
  RightFlanking ws punct prev next ∧
    (delim = '_' → ¬ LeftFlanking ws punct prev next ∨ ∃ c, next = some c ∧ punct c = true)

/-- The number of open brackets after a text, if none is closed that is not open. -/
def openAfter (d : Nat) : List Char → Option Nat
  | [] => some d
  | '[' :: s => openAfter (d + 1) s
  | ']' :: s => match d with
    | 0 => none
    | e + 1 => openAfter e s
  | _ :: s => openAfter d s

/-- Brackets in the text match. -/
def Matched (text : List Char) : Prop := openAfter 0 text = some 0

/-- White space runs become single spaces, none is left at the ends. -/
def squeezed (text : List Char) : List Char := joinWith [' '] (splitWs text)

end Hongdown.Spec
