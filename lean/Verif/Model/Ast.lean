import Verif.Str

/-!
# Model of the syntax tree

The tree which the comrak library builds. The parser itself is not modelled: the
serializer model takes any tree. Only the node kinds which the serializer treats
specially are listed; `other` stands for the remaining ones (the default branch of
every match).
-/

namespace Hongdown.Model

/-- comrak `Sourcepos`: first and last line and byte column, counted from 1. -/
structure Pos where
  startLine : Nat
  startCol : Nat
  endLine : Nat
  endCol : Nat
  deriving DecidableEq

/-- comrak `ListType`. -/
inductive ListType where
  | bullet
  | ordered
  deriving DecidableEq

/-- comrak `TableAlignment`. -/
inductive Align where
  | none
  | left
  | center
  | right
  deriving DecidableEq

/-- comrak `AlertType`. -/
inductive AlertType where
  | note
  | tip
  | important
  | warning
  | caution
  deriving DecidableEq

/-- comrak `NodeValue`, as matched in src/serializer/mod.rs:513-696. Payload fields which
the serializer does not read are left out, except for the title of an alert. -/
inductive NodeValue where
  | document
  | heading (level : Nat)
  | list (type : ListType) (tight : Bool)
  | item
  | taskItem (symbol : Option Char)
  | codeBlock (info literal : List Char)
  | blockQuote
  | htmlBlock (literal : List Char)
  | htmlInline (literal : List Char)
  | frontMatter (content : List Char)
  | table (alignments : List Align)
  | tableRow
  | tableCell
  | descriptionList
  | descriptionItem
  | descriptionTerm
  | descriptionDetails
  | alert (type : AlertType) (title : Option (List Char))
  | paragraph
  | thematicBreak
  | text (t : List Char)
  | softBreak
  | lineBreak
  | emph
  | strong
  | code (literal : List Char)
  | link (url title : List Char)
  | image (url title : List Char)
  | footnoteReference (name : List Char)
  | footnoteDefinition (name : List Char)
  | other
  deriving DecidableEq

/-- comrak `AstNode`: a value, a source position and the children in order. -/
inductive Node where
  | mk (value : NodeValue) (pos : Pos) (children : List Node)

namespace Node

def value : Node → NodeValue
  | .mk v _ _ => v

def pos : Node → Pos
  | .mk _ p _ => p

def children : Node → List Node
  | .mk _ _ cs => cs

end Node

end Hongdown.Model
