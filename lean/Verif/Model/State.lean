import Verif.Model.Options
import Verif.Model.Ast

/-!
# Model of `src/serializer/state.rs`
-/

namespace Hongdown.Model

/-- `FormatSkipMode` (src/serializer/state.rs:14-27). -/
inductive SkipMode where
  | none
  | nextBlock
  | untilSection
  | disabled
  deriving DecidableEq

/-- `Directive` (src/serializer/state.rs:31-46). -/
inductive Directive where
  | disableFile
  | disableNextLine
  | disableNextSection
  | disable
  | enable
  | properNouns (nouns : List (List Char))
  | commonNouns (nouns : List (List Char))
  deriving DecidableEq

/-- The noun list of a directive: split at commas, trimmed, empty ones dropped
(src/serializer/state.rs:72-76). -/
def directiveNouns (args : List Char) : List (List Char) :=
  ((splitOn ',' args).map trim).filter (· ≠ [])

/-- The part of `Directive::parse` after the comment marks are removed
(src/serializer/state.rs:60-89). -/
def directiveOfContent (content : List Char) : Option Directive :=
  if content = "hongdown-disable-next-line".toList then some .disableNextLine
  else if content = "hongdown-disable-file".toList then some .disableFile
  else if content = "hongdown-disable-next-section".toList then some .disableNextSection
  else if content = "hongdown-disable".toList then some .disable
  else if content = "hongdown-enable".toList then some .enable
  else match stripPrefix? "hongdown-proper-nouns:".toList content with
    | some args => some (.properNouns (directiveNouns args))
    | none => match stripPrefix? "hongdown-common-nouns:".toList content with
      | some args => some (.commonNouns (directiveNouns args))
      | none => none

/-- `Directive::parse` (src/serializer/state.rs:51-90). The check `starts_with`/`ends_with`
of line 54 is implied by the two `strip` calls of line 58. -/
def parseDirective (html : List Char) : Option Directive :=
  match stripPrefix? "<!--".toList (trim html) with
  | none => none
  | some r => match stripSuffix? "-->".toList r with
    | none => none
    | some content => directiveOfContent (trim content)

/-- `ReferenceLink` (src/serializer/state.rs:95-99). -/
structure Ref where
  label : List Char
  url : List Char
  title : List Char
  deriving DecidableEq

/-- `FootnoteDefinition` (src/serializer/state.rs:103-111). -/
structure Footnote where
  name : List Char
  content : List Char
  referenceLine : Nat
  hasBlocks : Bool
  deriving DecidableEq

/-- `IndexMap::insert`: a present key keeps its place and gets the new value, a new key
goes to the end. -/
def mapInsert {β : Type} (k : List Char) (v : β) : List (List Char × β) → List (List Char × β)
  | [] => [(k, v)]
  | (k', v') :: rest => if k' = k then (k, v) :: rest else (k', v') :: mapInsert k v rest

/-- `entry(k).or_insert(v)`. -/
def mapOrInsert {β : Type} (k : List Char) (v : β) (m : List (List Char × β)) :
    List (List Char × β) :=
  if (m.lookup k).isSome then m else m ++ [(k, v)]

/-- `FootnoteSet` (src/serializer/state.rs:121-139). Hash sets and maps are lists. -/
structure FootnoteSet where
  pending : List (List Char × Footnote) := []
  emitted : List (List Char) := []
  referenceLines : List (List Char × Nat) := []
  collecting : Bool := false
  currentReferenceLine : Nat := 0
  pendingReferences : List (List Char × (Ref × Nat)) := []
  deriving DecidableEq

/-- `Warning` (src/serializer/state.rs:191-196). -/
structure Warning where
  line : Nat
  message : List Char
  deriving DecidableEq

/-! ### Slicing by byte offsets -/

/-- `str::is_char_boundary`. -/
def isBoundary : List Char → Nat → Bool
  | _, 0 => true
  | [], _ + 1 => false
  | c :: cs, i + 1 => utf8Len c ≤ i + 1 && isBoundary cs (i + 1 - utf8Len c)

/-- The characters which start at byte offset `n` or later. -/
def byteDrop : Nat → List Char → List Char
  | 0, s => s
  | _ + 1, [] => []
  | n + 1, c :: cs => byteDrop (n + 1 - utf8Len c) cs

/-- The characters which start before byte offset `n`. -/
def byteTake : Nat → List Char → List Char
  | 0, _ => []
  | _ + 1, [] => []
  | n + 1, c :: cs => c :: byteTake (n + 1 - utf8Len c) cs

/-- `&s[a..b]`; `none` stands for the panic. -/
def byteSlice (s : List Char) (a b : Nat) : Option (List Char) :=
  if a ≤ b && isBoundary s a && isBoundary s b then some (byteDrop a (byteTake b s)) else none

/-- The start offset of `safe_str_slice` (src/serializer/state.rs:201-211). -/
def safeStart (s : List Char) (start : Nat) : Nat :=
  if byteLen s ≤ start then byteLen s
  else if isBoundary s start then start
  else ((List.range start).reverse.find? (isBoundary s)).getD 0

/-- The end offset of `safe_str_slice` (src/serializer/state.rs:213-222). -/
def safeEnd (s : List Char) (e : Nat) : Nat :=
  if byteLen s ≤ e then byteLen s
  else if isBoundary s e then e
  else ((List.range' e (byteLen s + 1 - e)).find? (isBoundary s)).getD (byteLen s)

/-- `safe_str_slice` (src/serializer/state.rs:200-225); `none` is the panic of line 224. -/
def safeStrSlice (s : List Char) (start e : Nat) : Option (List Char) :=
  byteSlice s (safeStart s start) (safeEnd s e)

/-! ### The serializer -/

/-- What a serializer run reads but never writes: the Unicode tables, the display width,
the table of named character references, the built-in proper nouns, the external
formatters, the options and the source (src/serializer/state.rs:235-288, fields
`options`, `source_lines`, `source_ends_with_newline`). `runFormatter` stands for
`run_formatter` (native) with the error already shown as text; `callback` is the code formatter of
the WASM build (src/serializer/state.rs:285-287). -/
structure Cx where
  uni : Uni
  width : List Char → Nat
  namedEntity : List Char → Option Char
  properNouns : List (List Char × List Char)
  runFormatter : CodeFormatter → List Char → Except (List Char) (List Char)
  opts : Options
  sourceLines : List (List Char)
  sourceEndsWithNewline : Bool
  callback : Option (List Char → List Char → Option (List Char)) := none

/-- The mutable fields of `Serializer` (src/serializer/state.rs:235-288). `panicked` is not
in the code: it records that a `usize` subtraction underflowed (src/serializer/mod.rs:430-431);
nothing after that point is meaningful. -/
structure St where
  output : List Char := []
  listItemIndex : Nat := 0
  listType : Option ListType := none
  listTight : Bool := true
  inBlockQuote : Bool := false
  blockquotePrefix : List Char := []
  pendingReferences : List (List Char × Ref) := []
  emittedReferences : List (List Char) := []
  footnotes : FootnoteSet := {}
  listDepth : Nat := 0
  skipMode : SkipMode := .none
  inDescriptionDetails : Bool := false
  descriptionDetailsFirstList : Bool := false
  warnings : List Warning := []
  orderedListMaxItems : Nat := 0
  listItemIndent : List Char := []
  blockquoteOuterIndent : List Char := []
  blockquoteEntryListDepth : Nat := 0
  directiveProperNouns : List (List Char) := []
  directiveCommonNouns : List (List Char) := []
  panicked : Bool := false
  deriving DecidableEq

/-- `self.output.push_str(s)`. -/
def St.push (st : St) (s : List Char) : St := { st with output := st.output ++ s }

/-- `add_warning` (src/serializer/state.rs:362-364). -/
def St.warn (st : St) (line : Nat) (message : List Char) : St :=
  { st with warnings := st.warnings ++ [⟨line, message⟩] }

/-- `extract_source` (src/serializer/state.rs:367-414). Where the slice would panic the
model gives the empty string. -/
def extractSource (cx : Cx) (p : Pos) : Option (List Char) :=
  if cx.sourceLines = [] then none
  else if p.startLine = 0 ∨ p.endLine = 0 then none
  else
    let si := p.startLine - 1
    let ei := p.endLine - 1
    if cx.sourceLines.length ≤ ei then none
    else
      let piece (i : Nat) : List Char :=
        let line := cx.sourceLines.getD i []
        if si = ei then (safeStrSlice line (p.startCol - 1) p.endCol).getD []
        else if i = si then (safeStrSlice line (p.startCol - 1) (byteLen line)).getD []
        else if i = ei then (safeStrSlice line 0 (min p.endCol (byteLen line))).getD []
        else line
      some (joinWith ['\n'] ((List.range' si (ei + 1 - si)).map piece))

/-- `extract_source_from_line` (src/serializer/state.rs:418-438). -/
def extractSourceFromLine (cx : Cx) (startLine : Nat) : Option (List Char) :=
  if cx.sourceLines = [] ∨ startLine = 0 then none
  else if cx.sourceLines.length ≤ startLine - 1 then none
  else some (joinWith ['\n'] (cx.sourceLines.drop (startLine - 1)) ++
    (if cx.sourceEndsWithNewline then ['\n'] else []))

/-- `add_reference` (src/serializer/state.rs:448-459) with `FootnoteSet::add_reference`
(src/serializer/state.rs:183-186). -/
def addReference (st : St) (r : Ref) : St :=
  if st.footnotes.collecting then
    { st with footnotes := { st.footnotes with
        pendingReferences := mapInsert r.label (r, st.footnotes.currentReferenceLine)
          st.footnotes.pendingReferences } }
  else { st with pendingReferences := mapInsert r.label r st.pendingReferences }

/-- Several `add_reference` calls in a row. -/
def addReferences (st : St) (rs : List Ref) : St := rs.foldl addReference st

/-- `is_external_url` (src/serializer/state.rs:462-464). -/
def isExternalUrl (url : List Char) : Bool :=
  "http://".toList.isPrefixOf url || "https://".toList.isPrefixOf url

mutual
/-- `node_text_contains_char` (src/serializer/state.rs:501-512). -/
def nodeTextContains (c : Char) : Node → Bool
  | .mk (.text t) _ _ => t.contains c
  | .mk _ _ cs => nodesTextContain c cs

def nodesTextContain (c : Char) : List Node → Bool
  | [] => false
  | n :: ns => nodeTextContains c n || nodesTextContain c ns
end

/-- `get_emphasis_delimiter` (src/serializer/state.rs:469-481). -/
def emphDelimiter (cx : Cx) (n : Node) : Char :=
  if nodeTextContains '*' n then '_'
  else match extractSource cx n.pos with
    | some src => if src.head? = some '_' then '_' else '*'
    | none => '*'

/-- `get_strong_delimiter` (src/serializer/state.rs:486-498). -/
def strongDelimiter (cx : Cx) (n : Node) : List Char :=
  if nodeTextContains '*' n then ['_', '_']
  else match extractSource cx n.pos with
    | some src => if ['_', '_'].isPrefixOf src then ['_', '_'] else ['*', '*']
    | none => ['*', '*']

end Hongdown.Model
