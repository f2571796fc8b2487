import Verif.Model.Document
import Verif.Spec.Refs

/-!
# The layout of a document

What stands between the blocks of a document, which blocks are kept as they are in the
source, and where definitions go. Nothing here follows the state of the serializer: what
happens to a block is stated in terms of the blocks before it. The nodes that count as directives,
headings, footnote definitions, HTML blocks and front matter are named as in the model;
`Verif.Props.Nodes` says which they are.
-/

namespace Hongdown.Spec
open Model

/-- A heading that starts a section (README.md:124-127: "the next heading (h1 or h2)"). -/
def startsSection (n : Node) : Bool := n.headingLevel.any (· ≤ 2)

/-- A directive that turns formatting on or off. -/
def isSwitch (n : Node) : Bool :=
  n.directive = some .disable || n.directive = some .enable ||
    n.directive = some .disableNextLine || n.directive = some .disableNextSection

/-- A block of text: neither a directive nor a footnote definition. -/
def isTextBlock (n : Node) : Bool := n.directive.isNone && !n.isFootnoteDefinition

/-- What README.md:107-140 says: is the block `n` after the blocks `before` to be kept as it is? -/
inductive Covered (before : List Node) (n : Node) : Prop where
  /-- Between `disable` and `enable`. -/
  | disable (A : List Node) (d : Node) (B : List Node) : before = A ++ d :: B →
      d.directive = some .disable → (∀ m ∈ B, m.directive ≠ some .enable) → Covered before n
  /-- Right after `disable-next-line`. -/
  | nextLine (A : List Node) (d : Node) : before = A ++ [d] →
      d.directive = some .disableNextLine → Covered before n
  /-- After `disable-next-section` up to the next heading. -/
  | nextSection (A : List Node) (d : Node) (B : List Node) : before = A ++ d :: B →
      d.directive = some .disableNextSection → (∀ m ∈ B, startsSection m = false) →
      startsSection n = false → Covered before n

/-- What the code does: the last switch alone decides. -/
inductive Off (before : List Node) (n : Node) : Prop where
  | disable (A : List Node) (d : Node) (B : List Node) : before = A ++ d :: B →
      d.directive = some .disable → (∀ m ∈ B, isSwitch m = false) → Off before n
  | nextLine (A : List Node) (d : Node) (B : List Node) : before = A ++ d :: B →
      d.directive = some .disableNextLine → (∀ m ∈ B, isSwitch m = false) →
      (∀ m ∈ B, isTextBlock m = false) → Off before n
  | nextSection (A : List Node) (d : Node) (B : List Node) : before = A ++ d :: B →
      d.directive = some .disableNextSection → (∀ m ∈ B, isSwitch m = false) →
      (∀ m ∈ B, startsSection m = false) → startsSection n = false → Off before n

/-- The nouns which the directives among the nodes declare. -/
def declaredProper (before : List Node) : List (List Char) :=
  before.flatMap fun n => match n.directive with
    | some (.properNouns nouns) => nouns
    | _ => []

def declaredCommon (before : List Node) : List (List Char) :=
  before.flatMap fun n => match n.directive with
    | some (.commonNouns nouns) => nouns
    | _ => []

/-- The text of a block on its own, with the nouns declared before it. -/
def formatted (cx : Cx) (before : List Node) (n : Node) (nextBracket : Bool) : List Char :=
  (ser cx n nextBracket { directiveProperNouns := declaredProper before
                          directiveCommonNouns := declaredCommon before }).output

/-- What is written for a block: its source if formatting is off and the source is there,
and otherwise its own text. -/
def BlockText (cx : Cx) (before : List Node) (n : Node) (nextBracket : Bool) (text : List Char) : Prop :=
  (text = formatted cx before n nextBracket ∧ (Off before n → extractSource cx n.pos = none)) ∨
  ∃ source, Off before n ∧ extractSource cx n.pos = some source ∧ text = source ++ ['\n']

/-- The line breaks between the block before and this one: none at the start and after front
matter, one blank line in general, two before a second level heading that does not follow
a heading. (The block before ends its last line itself.) -/
def gapBetween (before : List Node) (n : Node) : List Char :=
  match before.getLast? with
  | none => []
  | some p =>
    if p.isFrontMatter then []
    else if n.headingLevel = some 2 ∧ p.headingLevel = none then ['\n', '\n']
    else ['\n']

/-- Nothing, or after a blank line some definitions. -/
def Group {α : Type} (f : α → List Char) (out t : List Char) : Prop :=
  t = [] ∨ ∃ xs g, xs ≠ [] ∧ IsGap out g ∧ t = g ++ (xs.map f).flatten

/-- Footnotes, references and references of footnotes after the text `out`. -/
def Definitions (cx : Cx) (out t : List Char) : Prop :=
  ∃ a b c, t = a ++ b ++ c ∧ Group (footnoteText cx) out a ∧ Group referenceText (out ++ a) b ∧
    Group referenceText (out ++ a ++ b) c

/-- Definitions are written before a second or third level heading that is not the first
block, and before each directive that turns formatting off. -/
def writesDefinitions (before : List Node) (n : Node) : Bool :=
  match n.directive with
  | some .disable => true
  | some .disableNextLine => true
  | some .disableNextSection => true
  | some .disableFile => true
  | some _ => false
  | none => !before.isEmpty && (n.headingLevel = some 2 || n.headingLevel = some 3)

/-- The lines after the directive `n`, with the line break before them. -/
def restOfFile (cx : Cx) (n : Node) : List Char :=
  match cx.sourceLines.drop n.pos.endLine with
  | [] => []
  | ls => '\n' :: joinWith ['\n'] ls ++ if cx.sourceEndsWithNewline then ['\n'] else []

/-- The trailing HTML blocks after the text `out`. -/
def htmlTail (out : List Char) (tail : List Node) (t : List Char) : Prop :=
  (tail.filterMap Node.html? = [] ∧ t = []) ∨
  (tail.filterMap Node.html? ≠ [] ∧ ∃ g, IsGap out g ∧ t = g ++ (tail.filterMap Node.html?).flatten)

/-- `Layout cx tail out before rest t`: after the blocks `before` and the text `out` come the
blocks `rest` as the text `t`; `tail` are the trailing blocks. -/
inductive Layout (cx : Cx) (tail : List Node) : List Char → List Node → List Node → List Char → Prop where
  | done (out defs html : List Char) (before : List Node) :
      Definitions cx out defs → htmlTail (out ++ defs) tail html →
      Layout cx tail out before [] (defs ++ html)
  | hidden (out t : List Char) (before rest : List Node) (n : Node) :
      n.isFootnoteDefinition = true → Layout cx tail out (before ++ [n]) rest t →
      Layout cx tail out before (n :: rest) t
  | file (out defs : List Char) (before rest : List Node) (n : Node) (literal : List Char) :
      n.directive = some .disableFile → n.html? = some literal → Definitions cx out defs →
      Layout cx tail out before (n :: rest) (defs ++ trimEnd literal ++ restOfFile cx n)
  | directive (out defs t : List Char) (before rest : List Node) (n : Node) (literal : List Char) :
      n.directive.isSome = true → n.directive ≠ some .disableFile → n.html? = some literal →
      (if writesDefinitions before n then Definitions cx out defs else defs = []) →
      Layout cx tail (out ++ defs ++ (if before = [] then [] else ['\n']) ++ literal)
        (before ++ [n]) rest t →
      Layout cx tail out before (n :: rest)
        (defs ++ (if before = [] then [] else ['\n']) ++ literal ++ t)
  | block (out defs text t : List Char) (before rest : List Node) (n : Node) :
      isTextBlock n = true →
      (if writesDefinitions before n then Definitions cx out defs else defs = []) →
      BlockText cx before n (nextIsBracket (rest ++ tail)) text →
      Layout cx tail (out ++ defs ++ gapBetween before n ++ text) (before ++ [n]) rest t →
      Layout cx tail out before (n :: rest) (defs ++ gapBetween before n ++ text ++ t)

/-- `cs` without its trailing HTML blocks and footnote definitions, and these. -/
structure Trailing (cs main tail : List Node) : Prop where
  eq : cs = main ++ tail
  tail : ∀ n ∈ tail, n.isPlainHtml = true ∨ n.isFootnoteDefinition = true
  main : ∀ n, main.getLast? = some n → n.isPlainHtml = false ∧ n.isFootnoteDefinition = false

/-- Source positions in the order of the tree. Footnote definitions may stand anywhere, but
not on the lines of other blocks. -/
structure InOrder (cs : List Node) : Prop where
  ok : ∀ n ∈ cs, 1 ≤ n.pos.startLine ∧ n.pos.startLine ≤ n.pos.endLine ∧ n.pos.endLine ≤ usizeMax
  order : ∀ A a B b C, cs = A ++ a :: (B ++ b :: C) → a.isFootnoteDefinition = false →
    b.isFootnoteDefinition = false → a.pos.endLine < b.pos.startLine
  apart : ∀ f ∈ cs, ∀ n ∈ cs, f.isFootnoteDefinition = true → n.isFootnoteDefinition = false →
    f.pos.endLine < n.pos.startLine ∨ n.pos.endLine < f.pos.startLine

end Hongdown.Spec
