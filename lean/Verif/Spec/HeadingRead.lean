import Verif.Model.Inline

/-!
# Reading headings back, and what headings contain
-/

namespace Hongdown.Spec
open Model

/-- Space or tab. -/
def blankChar (c : Char) : Bool := c = ' ' || c = '\t'

/-- A closing sequence of number signs is no part of the text. -/
def dropClosing (s : List Char) : List Char :=
  let body := (s.reverse.dropWhile (· = '#')).reverse
  if body = [] ∨ body.getLast?.any blankChar then (body.reverse.dropWhile blankChar).reverse else s

/-- Level and text of a line with an ATX heading (without indentation). -/
def atxLine (line : List Char) : Option (Nat × List Char) :=
  let level := (line.takeWhile (· = '#')).length
  let rest := line.drop level
  if 1 ≤ level ∧ level ≤ 6 ∧ (rest = [] ∨ rest.head?.any blankChar) then
    some (level, dropClosing ((rest.dropWhile blankChar).reverse.dropWhile blankChar).reverse)
  else none

/-- The level that a setext underline stands for. -/
def underline (line : List Char) : Option Nat :=
  if line ≠ [] ∧ line.all (· = '=') then some 1
  else if line ≠ [] ∧ line.all (· = '-') then some 2
  else none

/-- A marker is followed by a blank or ends the line. -/
def markerEnd (rest : List Char) : Bool := rest = [] || rest.head?.any blankChar

/-- Can the line start a block other than a paragraph? A coarse test: indentation, quotes, list
markers, fences, thematic breaks, HTML, tables, definitions. -/
def startsBlock (line : List Char) : Bool :=
  match line with
  | [] => true
  | c :: rest =>
    blankChar c || c = '>' || c = '<' || c = '[' || c = ':' || c = '|' ||
    ((c = '-' || c = '+' || c = '*') && markerEnd rest) ||
    (let digits := line.takeWhile Char.isDigit
     let after := line.drop digits.length
     1 ≤ digits.length && digits.length ≤ 9 && (after.head? = some '.' || after.head? = some ')') && markerEnd (after.drop 1)) ||
    ['`', '`', '`'].isPrefixOf line || ['~', '~', '~'].isPrefixOf line ||
    ([('*' : Char), '-', '_'].any fun m => (line.all fun d => d = m || blankChar d) && 3 ≤ (line.filter (· = m)).length)

/-- Level and text of the heading at the start of a text. -/
def readHeading (s : List Char) : Option (Nat × List Char) :=
  match splitOn '\n' s with
  | first :: rest =>
    match atxLine first with
    | some r => some r
    | none => if startsBlock first then none else rest.head?.bind fun l => (underline l).map fun level => (level, first)
  | [] => none

/-- A text that can be read back in both forms of heading. -/
structure HeadingOk (width : List Char → Nat) (text : List Char) : Prop where
  line : '\n' ∉ text
  width : 0 < width text
  start : startsBlock text = false
  atx : text.head? ≠ some '#'
  stop : ∀ c, text.getLast? = some c → c ≠ '#' ∧ blankChar c = false

/-- Characters that formatting does not touch: letters and digits, and all characters outside
of ASCII except the typographic ones. -/
def isContent (c : Char) : Bool :=
  c.isAlphanum || (127 < c.toNat && !['‘', '’', '“', '”', '…', '–', '—'].contains c)

mutual
/-- The content of the texts and the code in a node. -/
def contentOf : Node → List Char
  | .mk (.text t) _ _ => t.filter isContent
  | .mk (.code t) _ _ => t.filter isContent
  | .mk _ _ cs => contentsOf cs

def contentsOf : List Node → List Char
  | [] => []
  | n :: ns => contentOf n ++ contentsOf ns
end

mutual
/-- Only texts and emphasis inside. -/
def onlyText : Node → Bool
  | .mk v _ cs =>
    (match v with
      | .text _ => true
      | .emph => true
      | .strong => true
      | .softBreak => cs.isEmpty
      | _ => false) && onlyTexts cs

def onlyTexts : List Node → Bool
  | [] => true
  | n :: ns => onlyText n && onlyTexts ns
end

mutual
/-- Inline content of headings that is kept: texts, code, emphasis, links and images of texts.
The sources of texts have no entities; the sources of code and of reference links have the
content that the tree has. -/
def KeptInline (cx : Cx) : Node → Prop
  | .mk v p cs =>
    match v with
    | .text _ => cs = [] ∧ ∀ src, extractSource cx p = some src → '&' ∉ src
    | .code t => cs = [] ∧ ∀ src, extractSource cx p = some src → (t.filter isContent).Sublist src
    | .softBreak => cs = []
    | .emph => KeptInlines cx cs
    | .strong => KeptInlines cx cs
    | .link _ _ => onlyTexts cs = true ∧
        ∀ text label, referenceStyleInfo cx p = some (text, label) → (contentsOf cs).Sublist text
    | .image _ _ => onlyTexts cs = true
    | _ => False

def KeptInlines (cx : Cx) : List Node → Prop
  | [] => True
  | n :: ns => KeptInline cx n ∧ KeptInlines cx ns
end

end Hongdown.Spec
