import Verif.Model.Refs
import Verif.Model.Table
import Verif.Model.Code
import Verif.Model.Heading
import Verif.Model.Wrap

/-!
# Model of the block serializers: `src/serializer/{list,block,document}.rs` (blocks)

A serializer function of the code takes a node and calls `serialize_node` on its
children. In the model it takes the children as a list of `Kid`s: the child and what
`serialize_node` does with it. `Verif.Model.Document` ties the knot.
-/

namespace Hongdown.Model

/-- A child node and the effect of `serialize_node` on it. -/
structure Kid where
  node : Node
  act : St → St

/-- `serialize_children` (src/serializer/mod.rs:699-703). -/
def runKids (kids : List Kid) (st : St) : St := kids.foldl (fun st k => k.act st) st

/-! ### Headings, paragraphs, thematic breaks -/

/-- `serialize_heading` (src/serializer/document.rs:421-458): the text for a heading. -/
def headingText (cx : Cx) (level : Nat) (text : List Char) : List Char :=
  if level = 1 ∧ cx.opts.setextH1 then
    text ++ ['\n'] ++ List.replicate (cx.width text) '=' ++ ['\n']
  else if level = 2 ∧ cx.opts.setextH2 then
    text ++ ['\n'] ++ List.replicate (cx.width text) '-' ++ ['\n']
  else List.replicate level '#' ++ [' '] ++ text ++ ['\n']

/-- The nouns for a heading (src/serializer/document.rs:428-434). -/
def headingNouns (cx : Cx) (st : St) : Nouns where
  builtin := cx.properNouns
  proper := cx.opts.headingProperNouns ++ st.directiveProperNouns
  common := cx.opts.headingCommonNouns ++ st.directiveCommonNouns

/-- `serialize_heading` (src/serializer/document.rs:421-458). -/
def serHeading (cx : Cx) (level : Nat) (children : List Node) (st : St) : St :=
  let r := collectTexts cx children
  let text := if cx.opts.headingSentenceCase then toSentenceCase cx.uni (headingNouns cx st) r.1
    else r.1
  (addReferences st r.2).push (headingText cx level text)

/-- The abbreviation definition of a paragraph, if it is one
(src/serializer/document.rs:463-470). -/
def abbreviationDef (cx : Cx) (p : Pos) : Option (List Char) :=
  match extractSource cx p with
  | none => none
  | some src =>
    if ['*', '['].isPrefixOf (trim src) && containsSub [']', ':'] (trim src) then some (trim src)
    else none

/-- The continuation indent of a paragraph in a list (src/serializer/document.rs:486-513). -/
def paragraphContinuation (cx : Cx) (st : St) : List Char :=
  let inner := st.listDepth - st.blockquoteEntryListDepth
  let base :=
    if st.inDescriptionDetails ∧ 0 < inner then
      spaces 5 ++ spaces (1 + cx.opts.trailingSpaces) ++ spaces (4 * (inner - 1))
    else spaces (4 * inner)
  if st.inBlockQuote then st.blockquoteOuterIndent ++ st.blockquotePrefix ++ base else base

/-- The prefix of a paragraph in a block quote (src/serializer/document.rs:521-525). -/
def quotePrefix (st : St) : List Char :=
  if st.inBlockQuote then st.blockquoteOuterIndent ++ st.blockquotePrefix else []

/-- `serialize_paragraph` (src/serializer/document.rs:460-532). -/
def serParagraph (cx : Cx) (p : Pos) (children : List Node) (st : St) : St :=
  match abbreviationDef cx p with
  | some src => st.push (src ++ ['\n'])
  | none =>
    let r := collectInlines cx children
    let st := addReferences st r.2
    if st.listType.isSome then
      st.push (wrapTextFirstLine cx.width (trim r.1) [] (paragraphContinuation cx st)
        cx.opts.lineWidth)
    else st.push (wrapText cx.width r.1 (quotePrefix st) cx.opts.lineWidth ++ ['\n'])

/-- `serialize_thematic_break` (src/serializer/document.rs:861-878). -/
def serThematicBreak (cx : Cx) (st : St) : St :=
  st.push ((if st.inBlockQuote then st.blockquoteOuterIndent ++ ['>', ' '] else []) ++
    spaces cx.opts.thematicBreakLeadingSpaces ++ cx.opts.thematicBreakStyle ++ ['\n'])

/-- `serialize_front_matter` (src/serializer/document.rs:534-539). -/
def serFrontMatter (content : List Char) (st : St) : St := st.push (trim content ++ ['\n', '\n'])

/-! ### Lists -/

/-- Is the node an `Item` (src/serializer/list.rs:9-13)? Task items do not count. -/
def Node.isItem (n : Node) : Bool := n.value = .item

/-- Is the node a list? -/
def Node.isList (n : Node) : Bool :=
  match n.value with
  | .list _ _ => true
  | _ => false

/-- Is the node a code block? -/
def Node.isCodeBlock (n : Node) : Bool :=
  match n.value with
  | .codeBlock _ _ => true
  | _ => false

/-- Is the node a block quote or an alert? -/
def Node.isQuote (n : Node) : Bool :=
  match n.value with
  | .blockQuote => true
  | .alert _ _ => true
  | _ => false

/-- `serialize_list` (src/serializer/list.rs:32-60). -/
def serList (type : ListType) (tight : Bool) (kids : List Kid) (st : St) : St :=
  let inner := runKids kids { st with
    listType := some type
    listTight := tight
    listItemIndex := 0
    listDepth := st.listDepth + 1
    orderedListMaxItems := if type = .ordered then (kids.filter fun k => k.node.isItem).length
      else st.orderedListMaxItems }
  { inner with
    listDepth := inner.listDepth - 1
    listType := st.listType
    listTight := st.listTight
    listItemIndex := st.listItemIndex
    orderedListMaxItems := st.orderedListMaxItems }

/-- The indent per level (src/serializer/list.rs:106-109). -/
def listIndentWidth (cx : Cx) (st : St) : Nat :=
  if st.listType = some .ordered then cx.opts.orderedListIndentWidth else cx.opts.indentWidth

/-- `calculate_marker_width` (src/serializer/list.rs:17-30). -/
def markerWidth (cx : Cx) : Option ListType → Nat
  | some .bullet => cx.opts.leadingSpaces + 1 + cx.opts.trailingSpaces
  | some .ordered => cx.opts.orderedListIndentWidth
  | none => 0

/-- The marker (src/serializer/list.rs:121-160). -/
def itemMarker (cx : Cx) (st : St) : List Char :=
  match st.listType with
  | some .bullet =>
    (if st.inDescriptionDetails ∧ st.listDepth = 1 then [] else spaces cx.opts.leadingSpaces) ++
      [cx.opts.unorderedMarker] ++ spaces cx.opts.trailingSpaces
  | some .ordered =>
    let num := (Nat.repr st.listItemIndex).toList
    let delim := if st.listDepth % 2 = 1 then cx.opts.oddLevelMarker else cx.opts.evenLevelMarker
    num ++ [delim] ++ spaces (max (cx.opts.orderedListIndentWidth - (num.length + 1)) 1)
  | none => []

/-- The check box of a task item (src/serializer/list.rs:163-169): outer `none` for a
regular item. -/
def taskBox : Option (Option Char) → List Char
  | none => []
  | some (some _) => ['[', 'x', ']', ' ']
  | some none => ['[', ' ', ']', ' ']

/-- Everything before the content of an item (src/serializer/list.rs:74-169), after
`list_item_index` was incremented. -/
def itemLead (cx : Cx) (task : Option (Option Char)) (st : St) : List Char :=
  let onColonLine := st.descriptionDetailsFirstList && st.listItemIndex == 1 && st.listDepth == 1
  let desc := if st.inDescriptionDetails && !onColonLine then spaces 5 else []
  (if !st.listTight && 1 < st.listItemIndex then ['\n'] else []) ++
  (if st.inBlockQuote then ['>', ' '] else []) ++
  desc ++ (if 1 < st.listDepth then spaces (listIndentWidth cx st * (st.listDepth - 1)) else []) ++
  itemMarker cx st ++ taskBox task

/-- The indent of the content of an item (src/serializer/list.rs:173-210). -/
def itemIndent (cx : Cx) (st : St) : List Char :=
  let iw := listIndentWidth cx st
  let mw := markerWidth cx st.listType
  if st.inDescriptionDetails then
    let mwd :=
      if st.listDepth = 1 then
        match st.listType with
        | some .bullet => 1 + cx.opts.trailingSpaces
        | some .ordered => cx.opts.orderedListIndentWidth
        | none => 0
      else mw
    spaces (5 + iw * (st.listDepth - 1)) ++ spaces mwd
  else if 1 < st.listDepth then spaces (iw * (st.listDepth - 1)) ++ spaces mw
  else spaces mw

/-- One child of an item (src/serializer/list.rs:216-288). `prev` is the child before. -/
def serItemChild (cx : Cx) (indent : List Char) (prev : Option Node) (k : Kid) (st : St) : St :=
  let q := if st.inBlockQuote then ['>', ' '] else []
  match k.node.value with
  | .list _ _ =>
    let blank := prev.any fun p => p.pos.endLine + 1 < k.node.pos.startLine
    k.act (st.push (if blank then ['\n', '\n'] else ['\n']))
  | .paragraph =>
    k.act (match prev with
      | none => st
      | some p =>
        st.push ((if p.isCodeBlock || p.isList then ['\n'] else ['\n', '\n']) ++ q ++ indent))
  | .codeBlock info literal =>
    serCodeBlockIndented cx info literal indent (st.push (['\n', '\n'] ++ q ++ indent))
  | .blockQuote => k.act (st.push ((if prev.isSome then ['\n', '\n'] else ['\n']) ++ q))
  | .alert _ _ => k.act (st.push ((if prev.isSome then ['\n', '\n'] else ['\n']) ++ q))
  | _ => k.act st

/-- The children of an item (src/serializer/list.rs:216-288). -/
def serItemChildren (cx : Cx) (indent : List Char) : Option Node → List Kid → St → St
  | _, [], st => st
  | prev, k :: ks, st => serItemChildren cx indent (some k.node) ks (serItemChild cx indent prev k st)

/-- Does the node end its own line (src/serializer/list.rs:296-306)? -/
def endsLine (n : Node) : Bool := n.isList || n.isCodeBlock || n.isQuote

/-- `serialize_list_item` (src/serializer/list.rs:69-310). -/
def serItem (cx : Cx) (task : Option (Option Char)) (kids : List Kid) (st : St) : St :=
  let st := { st with listItemIndex := st.listItemIndex + 1 }
  let st := st.push (itemLead cx task st)
  let indent := itemIndent cx st
  let inner := serItemChildren cx indent none kids { st with listItemIndent := indent }
  let inner := { inner with listItemIndent := st.listItemIndent }
  if (kids.getLast?.any fun k => endsLine k.node) then inner else inner.push ['\n']

/-! ### Block quotes and alerts -/

/-- `enter_blockquote_context` (src/serializer/block.rs:22-53). -/
def enterQuote (st : St) : St :=
  { st with
    inBlockQuote := true
    blockquotePrefix := st.blockquotePrefix ++ ['>', ' ']
    blockquoteOuterIndent := st.listItemIndent
    blockquoteEntryListDepth := st.listDepth
    listItemIndent := []
    listType := none
    listDepth := 0 }

/-- `exit_blockquote_context` (src/serializer/block.rs:56-64); `old` is the state before
`enter_blockquote_context`. -/
def exitQuote (old st : St) : St :=
  { st with
    listDepth := old.listDepth
    listType := old.listType
    listItemIndent := old.listItemIndent
    blockquoteOuterIndent := old.blockquoteOuterIndent
    blockquoteEntryListDepth := old.blockquoteEntryListDepth
    blockquotePrefix := old.blockquotePrefix
    inBlockQuote := old.inBlockQuote }

/-- `serialize_blockquote_children` (src/serializer/block.rs:67-80); `sep` is the line
between two children. -/
def serQuoteChildren (sep : List Char) : List Kid → St → St
  | [], st => st
  | [k], st => k.act st
  | k :: ks, st => serQuoteChildren sep ks ((k.act st).push sep)

/-- `serialize_block_quote` (src/serializer/block.rs:82-87). -/
def serBlockQuote (kids : List Kid) (st : St) : St :=
  exitQuote st (serQuoteChildren (st.listItemIndent ++ st.blockquotePrefix ++ ['>', '\n']) kids
    (enterQuote st))

/-- The name of an alert (src/serializer/block.rs:91-97). -/
def alertName : AlertType → List Char
  | .note => "NOTE".toList
  | .tip => "TIP".toList
  | .important => "IMPORTANT".toList
  | .warning => "WARNING".toList
  | .caution => "CAUTION".toList

/-- `serialize_alert` (src/serializer/block.rs:89-123). -/
def serAlert (type : AlertType) (p : Pos) (kids : List Kid) (st : St) : St :=
  let lead := st.listItemIndent ++ st.blockquotePrefix
  let st := st.push (lead ++ ['>', ' ', '[', '!'] ++ alertName type ++ [']', '\n'])
  let blank := kids.head?.any fun k => p.startLine + 1 < k.node.pos.startLine
  serBlockQuote kids (if blank then st.push (lead ++ ['>', '\n']) else st)

/-! ### Description lists -/

/-- The paragraph of a description (src/serializer/document.rs:317-329, 374-387). -/
def serDetailsParagraph (cx : Cx) (bq lead : List Char) (children : List Node) (st : St) : St :=
  let r := collectInlines cx children
  (addReferences st r.2).push (bq ++ lead ++
    wrapTextFirstLine cx.width (trim r.1) [] (bq ++ spaces 4) cx.opts.lineWidth ++ ['\n'])

/-- A child with `list_item_indent` set to four spaces
(src/serializer/document.rs:353-360, 402-408). -/
def withIndent4 (k : Kid) (st : St) : St :=
  { k.act { st with listItemIndent := spaces 4 } with listItemIndent := st.listItemIndent }

/-- One child of a description (src/serializer/document.rs:309-416). -/
def serDetailsChild (cx : Cx) (bq : List Char) (first : Bool) (k : Kid) (st : St) : St :=
  if first then
    match k.node.value with
    | .paragraph => serDetailsParagraph cx bq [':', ' ', ' ', ' '] k.node.children st
    | .codeBlock info literal =>
      serCodeBlockWithIndent cx info literal (bq ++ spaces 4)
        (st.push (bq ++ [':', ' ', ' ', ' ', '\n'] ++ bq ++ spaces 4))
    | .list _ _ =>
      { k.act { st.push (bq ++ [':', ' ', ' ', ' ', ' ']) with
          descriptionDetailsFirstList := true } with descriptionDetailsFirstList := false }
    | .blockQuote => withIndent4 k (st.push (bq ++ [':', '\n']))
    | .alert _ _ => withIndent4 k (st.push (bq ++ [':', '\n']))
    | _ => k.act (st.push (bq ++ [':', ' ', ' ', ' ']))
  else
    let st := st.push ['\n']
    match k.node.value with
    | .paragraph => serDetailsParagraph cx bq (spaces 4) k.node.children st
    | .codeBlock info literal =>
      serCodeBlockWithIndent cx info literal (bq ++ spaces 4) (st.push (bq ++ spaces 4))
    | .list _ _ => k.act st
    | .blockQuote => withIndent4 k st
    | .alert _ _ => withIndent4 k st
    | _ => k.act (st.push (bq ++ spaces 4))

/-- `serialize_description_details` (src/serializer/document.rs:295-419). -/
def serDetails (cx : Cx) (kids : List Kid) (st : St) : St :=
  let bq := quotePrefix st
  let inner := match kids with
    | [] => { st with inDescriptionDetails := true }
    | k :: ks => ks.foldl (fun st k => serDetailsChild cx bq false k st)
        (serDetailsChild cx bq true k { st with inDescriptionDetails := true })
  { inner with inDescriptionDetails := st.inDescriptionDetails }

/-- A description list (src/serializer/mod.rs:553-574). -/
def serDescriptionList : List Kid → St → St
  | [], st => st
  | [k], st => k.act st
  | k :: ks, st =>
    let st := k.act st
    serDescriptionList ks (st.push (if st.inBlockQuote then
      st.listItemIndent ++ trimEnd st.blockquotePrefix ++ ['\n'] else ['\n']))

/-! ### Inline nodes that are serialized directly -/

/-- `serialize_link` (src/serializer/link.rs:154-217). -/
def serLink (cx : Cx) (p : Pos) (url title : List Char) (nextBracket : Bool) (kids : List Kid)
    (st : St) : St :=
  let image := kids.any fun k => k.node.isImage
  let children := kids.map (·.node)
  match referenceStyleInfo cx p with
  | some (text, label) =>
    if image then
      let actual := (stripPrefix? [collapsedMark] label).getD label
      let st := (runKids kids (st.push ['['])).push ([']', '['] ++ actual ++ [']'])
      addReference st ⟨actual, url, title⟩
    else
      let r := formatReference [] text label url title
      (addReferences st r.2).push r.1
  | none =>
    if image then
      (runKids kids (st.push ['['])).push ([']', '('] ++ url ++ titlePart title ++ [')'])
    else if title = [] ∧ rawTexts children = url then st.push (formatAutolink url)
    else
      let t := collectTexts cx children
      let st := addReferences st t.2
      if isExternalUrl url then
        let r := formatExternalLink t.1 url title nextBracket
        (addReferences st r.2).push r.1
      else st.push (formatInlineLink [] t.1 url title)

/-- `serialize_image` (src/serializer/link.rs:219-234). -/
def serImage (cx : Cx) (p : Pos) (url title : List Char) (children : List Node) (st : St) : St :=
  let alt := collectTexts cx children
  let st := addReferences st alt.2
  match referenceStyleInfo cx p with
  | some (text, label) =>
    let r := formatReference ['!'] text label url title
    (addReferences st r.2).push r.1
  | none => st.push (formatInlineLink ['!'] alt.1 url title)

/-! ### Footnote definitions -/

/-- Does the footnote have blocks (src/serializer/mod.rs:638-655)? -/
def hasBlocks (children : List Node) : Bool :=
  children.any (fun n => match n.value with
    | .codeBlock _ _ => true
    | .blockQuote => true
    | .list _ _ => true
    | .table _ => true
    | _ => false) ||
  1 < (children.filter fun n => n.value = .paragraph).length

/-- `serialize_footnote_blocks` and `serialize_single_block` (src/serializer/mod.rs:485-510):
each child is written to an empty output, which is then put back. -/
def footnoteBlocks : Bool → List Kid → List Char → St → List Char × St
  | _, [], acc, st => (trimEnd acc, st)
  | first, k :: ks, acc, st =>
    let r := k.act { st with output := [] }
    let block := trimEnd r.output
    footnoteBlocks false ks
      (acc ++ (if !first && block ≠ [] then ['\n', '\n'] else []) ++ block)
      { r with output := st.output }

/-- A footnote definition (src/serializer/mod.rs:629-691) with `start_collecting`,
`stop_collecting` and `add` (src/serializer/state.rs:145-180). -/
def serFootnoteDefinition (cx : Cx) (name : List Char) (kids : List Kid) (st : St) : St :=
  let line := (st.footnotes.referenceLines.lookup name).getD 0
  let children := kids.map (·.node)
  let blocks := hasBlocks children
  let st := { st with footnotes := { st.footnotes with
    collecting := true, currentReferenceLine := line } }
  let r :=
    if blocks then footnoteBlocks true kids [] st
    else
      let i := collectInlines cx children
      (trim i.1, addReferences st i.2)
  let fs := r.2.footnotes
  { r.2 with footnotes := { fs with
      collecting := false
      currentReferenceLine := 0
      pending := mapInsert name ⟨name, r.1, line, blocks⟩ fs.pending } }

end Hongdown.Model
