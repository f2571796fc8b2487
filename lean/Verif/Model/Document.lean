import Verif.Model.Block
import Verif.Model.Warn

/-!
# Model of `serialize_document` and `serialize_node`
-/

namespace Hongdown.Model

mutual
/-- `collect_footnote_reference_lines` (src/serializer/document.rs:544-553): names and
lines in document order. -/
def footnoteRefLines : Node → List (List Char × Nat)
  | .mk (.footnoteReference name) p cs => (name, p.startLine) :: footnoteRefLinesList cs
  | .mk _ _ cs => footnoteRefLinesList cs

def footnoteRefLinesList : List Node → List (List Char × Nat)
  | [] => []
  | n :: ns => footnoteRefLines n ++ footnoteRefLinesList ns
end

/-- Record all footnote reference lines (src/serializer/document.rs:21). -/
def recordLines (ls : List (List Char × Nat)) (st : St) : St :=
  ls.foldl (fun st l => recordReferenceLine l.1 l.2 st) st

/-- Is the node a footnote definition? -/
def Node.isFootnoteDefinition (n : Node) : Bool :=
  match n.value with
  | .footnoteDefinition _ => true
  | _ => false

/-- The text of an HTML block. -/
def Node.html? (n : Node) : Option (List Char) :=
  match n.value with
  | .htmlBlock literal => some literal
  | _ => none

/-- Is the node an HTML block that is no directive? -/
def Node.isPlainHtml (n : Node) : Bool := n.html?.isSome && n.directive.isNone

/-- Is the node front matter? -/
def Node.isFrontMatter (n : Node) : Bool :=
  match n.value with
  | .frontMatter _ => true
  | _ => false

/-- `find_trailing_html_blocks` (src/serializer/document.rs:237-264) as a count from the
end: for the reversed children, how many of them make up the trailing part. Footnote
definitions count only if an HTML block comes before them. -/
def trailingCount : List Node → Nat
  | [] => 0
  | n :: ns =>
    if n.isPlainHtml then trailingCount ns + 1
    else if n.isFootnoteDefinition then
      if trailingCount ns = 0 then 0 else trailingCount ns + 1
    else 0

/-- `find_trailing_html_blocks` (src/serializer/document.rs:237-264). -/
def trailingStart (children : List Node) : Nat :=
  children.length - trailingCount children.reverse

/-- `output_trailing_html_blocks` (src/serializer/document.rs:267-293): the HTML blocks among
the trailing nodes. -/
def outputTrailing (nodes : List Node) (st : St) : St :=
  match nodes.filterMap Node.html? with
  | [] => st
  | l :: ls => (ensureBlankLine st).push (l ++ ls.flatten)

/-- The blank lines before a block (src/serializer/document.rs:155-176). -/
def blockGap (prev : Option Node) (n : Node) : List Char :=
  match prev with
  | none => []
  | some p =>
    if p.isFrontMatter then []
    else if n.headingLevel = some 2 then
      if p.headingLevel.isSome then ['\n'] else ['\n', '\n']
    else ['\n']

/-- A block in `serialize_document` after the blank lines
(src/serializer/document.rs:178-212). -/
def serTopBlock (cx : Cx) (k : Kid) (st : St) : St :=
  if st.skipMode = .none then k.act st
  else if st.skipMode = .untilSection ∧ k.node.headingLevel.any (· ≤ 2) then
    k.act { st with skipMode := .none }
  else
    let st := if st.skipMode = .nextBlock then { st with skipMode := .none } else st
    match extractSource cx k.node.pos with
    | some source => st.push (source ++ ['\n'])
    | none => k.act st

/-- Set the skip mode and write a directive (src/serializer/document.rs:82-88 and others);
`gap` is the line break before a directive that is not the first child. -/
def writeDirective (gap literal : List Char) (mode : SkipMode) (st : St) : St :=
  ({ st with skipMode := mode }).push (gap ++ literal)

/-- One child in the loop of `serialize_document` (src/serializer/document.rs:34-215).
`prev` is the child before, `trailing` says that the child is in the trailing part. The
Boolean result says that the loop (and the function) ends here. -/
def serTopChild (cx : Cx) (prev : Option Node) (trailing : Bool) (k : Kid) (st : St) : St × Bool :=
  let n := k.node
  let gap : List Char := if prev.isSome then ['\n'] else []
  if trailing && n.html?.isSome then (st, false)
  else if n.isFootnoteDefinition then (st, false)
  else match n.directive with
    | some d =>
      let literal := n.html?.getD []
      let flushed := flushAll cx (some n.pos.startLine) st
      match d with
      | .disableFile =>
        let st := flushed.push (trimEnd literal)
        (match extractSourceFromLine cx (n.pos.endLine + 1) with
          | some remaining => st.push ('\n' :: remaining)
          | none => st, true)
      | .disableNextLine => (writeDirective gap literal .nextBlock flushed, false)
      | .disableNextSection => (writeDirective gap literal .untilSection flushed, false)
      | .disable => (writeDirective gap literal .disabled flushed, false)
      | .enable => (writeDirective gap literal .none st, false)
      | .properNouns nouns =>
        (({ st with directiveProperNouns := st.directiveProperNouns ++ nouns }).push
          (gap ++ literal), false)
      | .commonNouns nouns =>
        (({ st with directiveCommonNouns := st.directiveCommonNouns ++ nouns }).push
          (gap ++ literal), false)
    | none =>
      let st :=
        if prev.isSome ∧ (n.headingLevel = some 2 ∨ n.headingLevel = some 3) then
          flushAll cx (some n.pos.startLine) st
        else st
      (serTopBlock cx k (st.push (blockGap prev n)), false)

/-- The loop of `serialize_document` (src/serializer/document.rs:34-215); `main` is the
number of children before the trailing part. -/
def serTopLoop (cx : Cx) : Option Node → Nat → List Kid → St → St × Bool
  | _, _, [], st => (st, false)
  | prev, main, k :: ks, st =>
    let r := serTopChild cx prev (main == 0) k st
    if r.2 then r else serTopLoop cx (some k.node) (main - 1) ks r.1

/-- Serialize the footnote definitions among the children
(src/serializer/document.rs:25-29). -/
def serFootnoteDefinitions (kids : List Kid) (st : St) : St :=
  runKids (kids.filter fun k => k.node.isFootnoteDefinition) st

/-- `serialize_document` (src/serializer/document.rs:12-233). -/
def serDocument (cx : Cx) (kids : List Kid) (st : St) : St :=
  let children := kids.map (·.node)
  let st := { st with warnings := st.warnings ++ undefinedWarnings cx children }
  let st := serFootnoteDefinitions kids (recordLines (footnoteRefLinesList children) st)
  let start := trailingStart children
  let r := serTopLoop cx none start kids st
  if r.2 then r.1
  else outputTrailing (children.drop start) (flushAll cx none r.1)

/-- `serialize_node` (src/serializer/mod.rs:512-697) on the kinds of nodes. -/
def dispatch (cx : Cx) (v : NodeValue) (p : Pos) (kids : List Kid) (nextBracket : Bool) (st : St) :
    St :=
  match v with
  | .document => serDocument cx kids st
  | .heading level => serHeading cx level (kids.map (·.node)) st
  | .list type tight => serList type tight kids st
  | .codeBlock info literal => serCodeBlock cx info literal st
  | .blockQuote => serBlockQuote kids st
  | .htmlBlock literal => st.push literal
  | .htmlInline literal => st.push literal
  | .frontMatter content => serFrontMatter content st
  | .table aligns => serTable cx p aligns (kids.map (·.node)) st
  | .tableRow => st
  | .tableCell => runKids kids st
  | .descriptionList => serDescriptionList kids st
  | .descriptionItem => runKids kids st
  | .descriptionTerm => runKids kids st
  | .descriptionDetails => serDetails cx kids st
  | .alert type _ => serAlert type p kids st
  | .item => serItem cx none kids st
  | .taskItem symbol => serItem cx (some symbol) kids st
  | .paragraph => serParagraph cx p (kids.map (·.node)) st
  | .thematicBreak => serThematicBreak cx st
  | .text t => st.push (escapeText t)
  | .softBreak => st.push [' ']
  | .lineBreak => st.push ['\n']
  | .emph => (runKids kids (st.push ['*'])).push ['*']
  | .strong => (runKids kids (st.push ['*', '*'])).push ['*', '*']
  | .code literal => st.push ((extractSource cx p).getD (formatCodeSpan literal))
  | .link url title => serLink cx p url title nextBracket kids st
  | .image url title => serImage cx p url title (kids.map (·.node)) st
  | .footnoteReference name =>
    (recordReferenceLine name p.startLine st).push (['[', '^'] ++ name ++ [']'])
  | .footnoteDefinition name => serFootnoteDefinition cx name kids st
  | .other => runKids kids st

mutual
/-- `serialize_node` (src/serializer/mod.rs:512-697). `nextBracket` is
`next_sibling_starts_with_bracket` of the node. -/
def ser (cx : Cx) : Node → Bool → St → St
  | .mk v p cs, nextBracket, st => dispatch cx v p (serKids cx cs) nextBracket st

/-- The children of a node with their effects. -/
def serKids (cx : Cx) : List Node → List Kid
  | [] => []
  | n :: ns => ⟨n, ser cx n (nextIsBracket ns)⟩ :: serKids cx ns
end

/-- `serialize_with_source_and_warnings` (src/serializer/mod.rs:47-61) and the empty input
case of `format_with_warnings` (src/lib.rs:249-273); the tree comes from the parser. -/
def formatDoc (cx : Cx) (root : Node) : St := ser cx root false {}

/-- The source fields of the serializer (src/serializer/mod.rs:52-53). -/
def withSource (cx : Cx) (source : List Char) : Cx :=
  { cx with sourceLines := lines source, sourceEndsWithNewline := source.getLast? = some '\n' }

/-- `format_with_warnings` (src/lib.rs:249-273) with the parser as a parameter: output and
warnings. -/
def formatWithWarnings (cx : Cx) (parse : List Char → Node) (input : List Char) :
    List Char × List Warning :=
  if input = [] then ([], [])
  else
    let r := formatDoc (withSource cx input) (parse input)
    (r.output, r.warnings)

end Hongdown.Model
