import Verif.Model.State
import Verif.Model.Code

/-!
# Model of the undefined reference check of `src/serializer/document.rs`

The regular expressions are written out as scanners.
-/

namespace Hongdown.Model

/-- `usize::MAX` on a 64 bit machine. -/
def usizeMax : Nat := 2 ^ 64 - 1

/-- The directive of an HTML block, if the node is one. -/
def Node.directive (n : Node) : Option Directive :=
  match n.value with
  | .htmlBlock literal => parseDirective literal
  | _ => none

/-- The level of a heading. -/
def Node.headingLevel (n : Node) : Option Nat :=
  match n.value with
  | .heading level => some level
  | _ => none

/-- The line before the first of the nodes with property `f`, or `usize::MAX`
(src/serializer/document.rs:637-647, 655-664). -/
def lineBefore (f : Node → Bool) (rest : List Node) : Nat :=
  match rest.find? f with
  | some n => n.pos.startLine - 1
  | none => usizeMax

/-- The range for one directive (src/serializer/document.rs:606-666). -/
def disabledRange (n : Node) (rest : List Node) : Option (Nat × Nat) :=
  match n.directive with
  | some .disableFile => some (n.pos.endLine + 1, usizeMax)
  | some .disableNextLine =>
    match rest with
    | [] => none
    | m :: _ => if m.directive.isSome then none else some (m.pos.startLine, m.pos.endLine)
  | some .disableNextSection =>
    some (n.pos.endLine + 1, lineBefore (fun m => m.headingLevel.any (· ≤ 2)) rest)
  | some .disable =>
    some (n.pos.endLine + 1, lineBefore (fun m => m.directive = some .enable) rest)
  | _ => none

/-- `collect_disabled_line_ranges` (src/serializer/document.rs:598-671). -/
def disabledRanges : List Node → List (Nat × Nat)
  | [] => []
  | n :: rest => (disabledRange n rest).toList ++ disabledRanges rest

/-- `is_line_in_disabled_ranges` (src/serializer/document.rs:674-678). -/
def inRanges (line : Nat) (ranges : List (Nat × Nat)) : Bool :=
  ranges.any fun r => r.1 ≤ line && line ≤ r.2

/-- The text between `[` and the next `]`, if that is not empty: the common part of the
regular expressions of lines 684 and 708. -/
def bracketed : List Char → Option (List Char × List Char)
  | '[' :: s =>
    let inner := s.takeWhile (· ≠ ']')
    if inner = [] ∨ s.contains ']' = false then none else some (inner, s.drop (inner.length + 1))
  | _ => none

/-- `^\*\[([^\]]+)\]:` on one line (src/serializer/document.rs:684-693). -/
def abbreviationOf : List Char → Option (List Char)
  | '*' :: s => match bracketed s with
    | some (name, ':' :: _) => some name
    | _ => none
  | _ => none

/-- `^\s*\[([^\]]+)\]:\s*\S` on one line (src/serializer/document.rs:708-716). -/
def definitionOf (line : List Char) : Option (List Char) :=
  match bracketed (trimStart line) with
  | some (label, ':' :: s) => if trimStart s = [] then none else some label
  | _ => none

/-- A match of the pattern of line 731: the matched text, the first and the second group. -/
structure RefMatch where
  full : List Char
  text : List Char
  label : Option (List Char)
  deriving DecidableEq

/-- Try the pattern `\[([^\[\]][^\]]*)\](?:\[([^\]]*)\])?` (src/serializer/document.rs:731)
at the start of the text: the match and the text after it. -/
def refMatchAt : List Char → Option (RefMatch × List Char)
  | '[' :: c :: s =>
    if c = '[' ∨ c = ']' ∨ s.contains ']' = false then none
    else
      let inner := c :: s.takeWhile (· ≠ ']')
      let after := s.drop inner.length
      match after with
      | '[' :: s2 =>
        if s2.contains ']' then
          let label := s2.takeWhile (· ≠ ']')
          some (⟨'[' :: inner ++ [']', '['] ++ label ++ [']'], inner, some label⟩,
            s2.drop (label.length + 1))
        else some (⟨'[' :: inner ++ [']'], inner, none⟩, after)
      | _ => some (⟨'[' :: inner ++ [']'], inner, none⟩, after)
  | _ => none

/-- `captures_iter`: leftmost matches that do not overlap; the length of the text is enough
fuel. -/
def refMatches : Nat → List Char → List RefMatch
  | 0, _ => []
  | _ + 1, [] => []
  | fuel + 1, c :: s =>
    match refMatchAt (c :: s) with
    | some (m, rest) => m :: refMatches fuel rest
    | none => refMatches fuel s

/-- The label of a match (src/serializer/document.rs:765-777). -/
def RefMatch.labelText (m : RefMatch) : List Char :=
  match m.label with
  | some l => if l = [] then m.text else l
  | none => m.text

/-- The part of a line before the first occurrence of a pattern (`str::find`). -/
def beforeFirst (pat : List Char) : List Char → Option (List Char)
  | [] => if pat = [] then some [] else none
  | c :: cs => if pat.isPrefixOf (c :: cs) then some [] else (beforeFirst pat cs).map (c :: ·)

/-- `is_escaped_in_source` (src/serializer/document.rs:840-859). -/
def escapedInSource (sourceLines : List (List Char)) (line : Nat) (pat : List Char) : Bool :=
  if line = 0 ∨ sourceLines.length < line then false
  else match beforeFirst pat (sourceLines.getD (line - 1) []) with
    | none => false
    | some before =>
      match before.reverse with
      | '\\' :: '\\' :: _ => false
      | '\\' :: _ => true
      | _ => false

/-- Is a match reported (src/serializer/document.rs:780-811)? -/
def reportsMatch (sourceLines abbrs defs : List (List Char)) (line : Nat) (m : RefMatch) : Bool :=
  m.labelText ≠ [] && m.labelText.head? ≠ some '^' && m.labelText.head? ≠ some '!' &&
    !abbrs.contains m.labelText && !defs.contains m.labelText &&
    !escapedInSource sourceLines line m.full

/-- The message (src/serializer/document.rs:813). -/
def undefinedMessage (label : List Char) : List Char :=
  "undefined reference link: [".toList ++ label ++ [']']

mutual
/-- `walk_ast_for_undefined_refs` (src/serializer/document.rs:747-836). -/
def walkRefs (sourceLines abbrs defs : List (List Char)) : Node → List Warning
  | .mk v p cs =>
    match v with
    | .text t =>
      ((refMatches t.length t).filter (reportsMatch sourceLines abbrs defs p.startLine)).map
        (fun m => ⟨p.startLine, undefinedMessage m.labelText⟩) ++
        walkRefsList sourceLines abbrs defs cs
    | .codeBlock _ _ => []
    | .code _ => []
    | .htmlBlock _ => []
    | .htmlInline _ => []
    | _ => walkRefsList sourceLines abbrs defs cs

def walkRefsList (sourceLines abbrs defs : List (List Char)) : List Node → List Warning
  | [] => []
  | n :: ns => walkRefs sourceLines abbrs defs n ++ walkRefsList sourceLines abbrs defs ns
end

/-- `check_undefined_references_ast` (src/serializer/document.rs:563-592): the warnings for
the document node with the given children. -/
def undefinedWarnings (cx : Cx) (children : List Node) : List Warning :=
  if cx.sourceLines = [] then []
  else (walkRefsList cx.sourceLines (cx.sourceLines.filterMap abbreviationOf)
      (cx.sourceLines.filterMap definitionOf) children).filter fun w =>
    !inRanges w.line (disabledRanges children)

end Hongdown.Model
