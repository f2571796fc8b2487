import Verif.Spec.Core
import Verif.Spec.Lists
import Verif.Spec.Table
import Verif.Spec.Alert

/-!
# Reading documents with nested lists

A reader for the documents of `Verif.Spec.Core` with block quotes of such blocks (CommonMark 5.1) and
GitHub alerts in them, with bullet lists and ordered lists, nested as deep as one likes (5.2 and 5.3), and with tables
(GitHub Flavored Markdown 4.10). It gives up (`none`) on everything that could be something else.
-/

namespace Hongdown.Spec
open Model

/-- What makes a block quote an alert: its kind. `blank`: an empty line stands after the line with the
kind. -/
structure AlertHead where
  kind : AlertType
  blank : Bool
  deriving DecidableEq

/-- A block: one of `CoreBlock`, a block quote or an alert of such blocks, a list of items with blocks, or a table
with the alignments of its columns and the text of the cells, the first row being the header. `gap`: a
blank line stands before the block and after the one before. `start` is the number of the first item,
`none` for bullets. -/
inductive TreeBlock where
  | leaf (gap : Bool) (b : CoreBlock)
  | quote (gap : Bool) (alert : Option AlertHead) (bs : List CoreBlock)
  | list (gap : Bool) (start : Option Nat) (tight : Bool) (items : List (List TreeBlock))
  | table (gap : Bool) (aligns : List Align) (rows : List (List (List Char)))

def TreeBlock.gap : TreeBlock → Bool
  | .leaf g _ => g
  | .quote g _ _ => g
  | .list g _ _ _ => g
  | .table g _ _ => g

def TreeBlock.isPara : TreeBlock → Bool
  | .leaf _ (.paragraph _) => true
  | _ => false

def CoreBlock.isDefinition : CoreBlock → Bool
  | .definition _ _ => true
  | _ => false

def TreeBlock.isDefinition : TreeBlock → Bool
  | .leaf _ b => b.isDefinition
  | .quote _ _ _ => false
  | .list _ _ _ _ => false
  | .table _ _ _ => false

/-- A line of blanks. -/
def blankLine (l : List Char) : Bool := l.all blankChar

/-- The start of an item that is not empty. Four spaces before the marker would be indented code. -/
def itemStart (l : List Char) : Option ItemStart :=
  match readItem l with
  | none => none
  | some s => if isRule l ∨ 3 < s.column ∨ blankLine (l.drop s.content) then none else some s

/-- Items with the same marker belong to one list. -/
def sameList (s t : ItemStart) : Bool := s.marker = t.marker && s.number.isSome == t.number.isSome

/-- The lines of an item after its first, without their indentation of `w`, and the lines after the
item. -/
def itemLines (w : Nat) : List (List Char) → List (List Char) × List (List Char)
  | [] => ([], [])
  | l :: ls =>
    if blankLine l ∨ w ≤ (l.takeWhile (· = ' ')).length then
      (l.drop w :: (itemLines w ls).1, (itemLines w ls).2)
    else ([], l :: ls)

/-- A line of a block quote without its marker. A tab after the marker, and tabs in blank lines, are not
read. -/
def readQuoteLine (l : List Char) : Option (List Char) :=
  if (l.drop 1).head? = some '\t' ∨ (blankLine (l.drop 1) ∧ '\t' ∈ l) then none else unquote l

/-- The lines of a block quote without their markers, and the lines after it. -/
def quoteLines : List (List Char) → List (List Char) × List (List Char)
  | [] => ([], [])
  | l :: ls =>
    match readQuoteLine l with
    | some t => (t :: (quoteLines ls).1, (quoteLines ls).2)
    | none => ([], l :: ls)

/-- The first line of an alert without a title. -/
def alertLine : List Char → Option AlertType
  | '>' :: ' ' :: '[' :: '!' :: r => (alertKinds.find? fun k => r.map Char.toLower = k.1 ++ [']']).map (·.2)
  | _ => none

/-- A block quote that begins with `[!` could be an alert. -/
def alertLike : List CoreBlock → Bool
  | .paragraph ls :: _ => ['[', '!'].isPrefixOf (ls.headD [])
  | .heading _ ls :: _ => ['[', '!'].isPrefixOf (ls.headD [])
  | _ => false

/-- What the reader is in. A paragraph and a code block have their `gap`. -/
inductive TreeMode where
  | none (gap : Bool)
  | paragraph (gap : Bool) (ls : List (List Char))
  | code (gap : Bool) (f : Fence) (ls : List (List Char))

/-- Can the item interrupt a paragraph? -/
def mayInterrupt (s : ItemStart) : Bool := s.number = none || s.number = some 1

/-- May the line stand directly after an item or a block quote, and not belong to it? A line of text, or
a definition, would continue a paragraph. -/
def mayFollow (m : List Char) : Bool :=
  match lineKind m with
  | .text => false
  | .definition _ _ => false
  | _ => match itemStart m with
    | some s => mayInterrupt s
    | none => true

/-- The blocks of a block quote or of an alert. -/
def readQuote (ls : List (List Char)) : Option (Option AlertHead × List CoreBlock) :=
  if !(quoteLines ls).2.head?.all mayFollow then none
  else match alertLine (ls.headD []) with
  | none =>
    match readLines .none (quoteLines ls).1 with
    | none => none
    | some bs => if alertLike bs then none else some (none, bs)
  | some kind =>
    match readLines .none (quoteLines ls).1.tail with
    | none => none
    | some bs => some (some ⟨kind, (quoteLines ls).1.tail.head?.any blankLine⟩, bs)

/-- A cell: empty, or a line of text without pipes. -/
def CellOk (c : List Char) : Prop := c = [] ∨ (TextLine c ∧ '|' ∉ c)

instance (c : List Char) : Decidable (CellOk c) := by unfold CellOk; infer_instance

/-- The cells of a row that begins with a pipe and ends with one. -/
def tableRow (l : List Char) : Option (List (List Char)) := if l.head? = some '|' then readRow l else none

/-- A table: a header, a row for the alignments and more rows, up to the next blank line. All rows have
as many cells. -/
def readTable (ls : List (List Char)) : Option (List Align × List (List (List Char))) :=
  match (ls.takeWhile fun l => !blankLine l).mapM tableRow with
  | some (header :: delims :: rows) =>
    match delims.mapM readDelim with
    | some aligns =>
      if aligns ≠ [] ∧ ∀ r ∈ header :: rows, r.length = aligns.length ∧ ∀ c ∈ r, CellOk c then some (aligns, header :: rows) else none
    | none => none
  | _ => none

/-- The items of a list, whether blank lines stand between them, whether one stands after them, the
lines after them. -/
structure ItemsRead where
  items : List (List TreeBlock)
  loose : Bool
  blank : Bool
  rest : List (List Char)

mutual

/-- Read lines. The first argument bounds the number of steps. -/
def readTree : Nat → TreeMode → List (List Char) → Option (List TreeBlock)
  | 0, _, _ => none
  | _ + 1, .none _, [] => some []
  | _ + 1, .paragraph g ls, [] => some [.leaf g (.paragraph ls)]
  | _ + 1, .code _ _ _, [] => none
  | k + 1, .code g f ls, l :: rest =>
    if isClosing f.char f.length l then (readTree k (.none false) rest).map (.leaf g (.code f.info ls) :: ·)
    else readTree k (.code g f (ls ++ [l])) rest
  | k + 1, .none g, l :: rest =>
    match lineKind l with
    | .blank => readTree k (.none true) rest
    | .rule => (readTree k (.none false) rest).map (.leaf g .rule :: ·)
    | .text => readTree k (.paragraph g [l]) rest
    | .heading level t => (readTree k (.none false) rest).map (.leaf g (.heading level [t]) :: ·)
    | .fence f => readTree k (.code g f []) rest
    | .definition label target =>
      if afterDefinition rest then (readTree k (.none false) rest).map (.leaf g (.definition label target) :: ·) else none
    | .other =>
      match itemStart l with
      | none =>
        if (readQuoteLine l).isSome then
          match readQuote (l :: rest) with
          | none => none
          | some (alert, bs) => (readTree k (.none false) (quoteLines (l :: rest)).2).map (.quote g alert bs :: ·)
        else
          match readTable (l :: rest) with
          | none => none
          | some (aligns, rows) =>
            (readTree k (.none false) ((l :: rest).dropWhile fun m => !blankLine m)).map (.table g aligns rows :: ·)
      | some s =>
        match readItems k s (l :: rest) with
        | none => none
        | some r => (readTree k (.none r.blank) r.rest).map
            (.list g s.number (!r.loose && !r.items.any fun it => it.any TreeBlock.gap) r.items :: ·)
  | k + 1, .paragraph g ls, l :: rest =>
    match underline l with
    | some level => (readTree k (.none false) rest).map (.leaf g (.heading level ls) :: ·)
    | none =>
      match lineKind l with
      | .text => readTree k (.paragraph g (ls ++ [l])) rest
      | .rule =>
        if (underline (strip l)).isSome then none
        else (readTree k (.none false) (l :: rest)).map (.leaf g (.paragraph ls) :: ·)
      | .other =>
        if (itemStart l).any mayInterrupt || (readQuoteLine l).isSome then
          (readTree k (.none false) (l :: rest)).map (.leaf g (.paragraph ls) :: ·)
        else none
      | .definition _ _ => none
      | _ => (readTree k (.none false) (l :: rest)).map (.leaf g (.paragraph ls) :: ·)

/-- Read the items of a list that started with `s`. Definitions in items are not read. -/
def readItems : Nat → ItemStart → List (List Char) → Option ItemsRead
  | 0, _, _ => none
  | _ + 1, _, [] => none
  | k + 1, s, l :: rest =>
    match itemStart l with
    | none => none
    | some t =>
      let (body, after) := itemLines t.content rest
      let blank := body.getLast?.any blankLine
      match readTree k (.none false) (l.drop t.content :: body) with
      | none => none
      | some bs =>
        if bs.any TreeBlock.isDefinition then none
        else match after with
        | [] => some ⟨[bs], false, blank, []⟩
        | m :: _ =>
          if (itemStart m).any (sameList s) then
            (readItems k s after).map fun r => ⟨bs :: r.items, blank || r.loose, r.blank, r.rest⟩
          else if blank || mayFollow m then some ⟨[bs], false, blank, after⟩
          else none

end

/-- The cells with text, as paragraphs. -/
def cellBlocks (rows : List (List (List Char))) : List CoreBlock := (rows.flatten.filter (· ≠ [])).map fun c => .paragraph [c]

mutual

/-- The blocks that are no lists, no block quotes and no tables; the cells of tables. -/
def leaves : TreeBlock → List CoreBlock
  | .leaf _ b => [b]
  | .quote _ _ bs => bs
  | .list _ _ _ items => itemsLeaves items
  | .table _ _ rows => cellBlocks rows

def itemsLeaves : List (List TreeBlock) → List CoreBlock
  | [] => []
  | it :: its => blocksLeaves it ++ itemsLeaves its

def blocksLeaves : List TreeBlock → List CoreBlock
  | [] => []
  | b :: bs => leaves b ++ blocksLeaves bs

end

/-- The definitions of a document. -/
def definitions : List CoreBlock → List (List Char × (List Char × List Char))
  | [] => []
  | .definition label target :: bs => (label, target) :: definitions bs
  | _ :: bs => definitions bs

/-- The blocks of a document that have nodes: definitions have none. -/
def shownTrees (d : List TreeBlock) : List TreeBlock := d.filter fun b => !b.isDefinition

/-- Where the links of a document lead. -/
def linksOf (d : List TreeBlock) : LinkMap := resolve (definitions (blocksLeaves d))

/-- A document, with enough steps. One that begins with `---` may have front matter. Tabs in blank
lines are not read. -/
def ReadsAs (source : List Char) (d : List TreeBlock) : Prop :=
  '\r' ∉ source ∧ '\x00' ∉ source ∧ (splitOn '\n' source).head? ≠ some ['-', '-', '-'] ∧
  (∀ l ∈ splitOn '\n' source, blankLine l = true → '\t' ∉ l) ∧ (∀ b ∈ blocksLeaves d, HasContent (linksOf d) b) ∧
  ∃ k, readTree k (.none false) (splitOn '\n' source) = some d

/-! ### The trees -/

/-- The node for a block that is no list and no block quote. The source of a paragraph begins like its first line. -/
def LeafNode (source : List Char) (links : LinkMap) : CoreBlock → Node → Prop
  | .heading level ls, n => ∃ p cs, n = .mk (.heading level) p cs ∧ LineNodes source links ls cs
  | .paragraph ls, n => ∃ p cs raw, n = .mk .paragraph p cs ∧ LineNodes source links ls cs ∧ StandsAt source p raw ∧
      (ls.headD []).take 2 <+: raw ∧ raw.getLast? ≠ some '\n'
  | .code info ls, n => ∃ p, n = .mk (.codeBlock info (unlines ls)) p []
  | .rule, n => ∃ p, n = .mk .thematicBreak p []
  | .definition _ _, _ => False

/-- The nodes for the blocks of a block quote. -/
def LeafNodes (source : List Char) (links : LinkMap) : List CoreBlock → List Node → Prop
  | [], ns => ns = []
  | b :: bs, ns => ∃ n rest, ns = n :: rest ∧ LeafNode source links b n ∧ LeafNodes source links bs rest

/-- The nodes for the cells of a row. -/
def CellNodes (source : List Char) (links : LinkMap) : List (List Char) → List Node → Prop
  | [], ns => ns = []
  | c :: cs, ns => ∃ p ks rest, ns = .mk .tableCell p ks :: rest ∧ (if c = [] then ks = [] else LineNodes source links [c] ks) ∧
      CellNodes source links cs rest

/-- The nodes for the rows of a table. -/
def RowNodes (source : List Char) (links : LinkMap) : List (List (List Char)) → List Node → Prop
  | [], ns => ns = []
  | r :: rs, ns => ∃ p cs rest, ns = .mk .tableRow p cs :: rest ∧ CellNodes source links r cs ∧ RowNodes source links rs rest

/-- The node for a block quote or an alert. The positions of an alert and of its first block tell whether
an empty line stands between. -/
def QuoteNode (p : Pos) (ns : List Node) : Option AlertHead → Node → Prop
  | none, n => n = .mk .blockQuote p ns
  | some a, n => n = .mk (.alert a.kind none) p ns ∧
      ∀ m ∈ ns.head?, (a.blank = true ↔ p.startLine + 1 < m.pos.startLine)

def listType : Option Nat → ListType
  | none => .bullet
  | some _ => .ordered

mutual

/-- The node for a block. -/
def TreeNode (source : List Char) (links : LinkMap) : TreeBlock → Node → Prop
  | .leaf _ b, n => LeafNode source links b n
  | .quote _ alert bs, n => ∃ p ns, QuoteNode p ns alert n ∧ LeafNodes source links bs ns
  | .list _ start tight items, n => ∃ p ns, n = .mk (.list (listType start) tight) p ns ∧ ItemNodes source links items ns
  | .table _ aligns rows, n => ∃ p ns, n = .mk (.table aligns) p ns ∧ RowNodes source links rows ns

/-- The nodes for items. -/
def ItemNodes (source : List Char) (links : LinkMap) : List (List TreeBlock) → List Node → Prop
  | [], ns => ns = []
  | it :: its, ns => ∃ p cs rest, ns = .mk .item p cs :: rest ∧ ChildNodes source links none it cs ∧ ItemNodes source links its rest

/-- The nodes for the blocks of an item. The positions of a list and of the block before tell whether
a blank line stands between. Nothing is asked of the positions of the other blocks. -/
def ChildNodes (source : List Char) (links : LinkMap) : Option Node → List TreeBlock → List Node → Prop
  | _, [], ns => ns = []
  | prev, b :: bs, ns => ∃ n rest, ns = n :: rest ∧ TreeNode source links b n ∧
      (∀ m g s t its, prev = some m → b = .list g s t its → (g = true ↔ m.pos.endLine + 1 < n.pos.startLine)) ∧
      ChildNodes source links (some n) bs rest

end

/-- The nodes for the blocks of a document. -/
def TopNodes (source : List Char) (links : LinkMap) : List TreeBlock → List Node → Prop
  | [], ns => ns = []
  | b :: bs, ns => ∃ n rest, ns = n :: rest ∧ TreeNode source links b n ∧ TopNodes source links bs rest

/-- A tree for a document. -/
def IsDocument (source : List Char) (d : List TreeBlock) (root : Node) : Prop :=
  ∃ p ns, root = .mk .document p ns ∧ TopNodes source (linksOf d) (shownTrees d) ns

/-! ### The same document -/

mutual

/-- The same block up to line breaks and blank lines; code blocks may have got the default language.
Whether a list is tight matters, and the kind of an alert. A table has the same cells. -/
def SameTree (dflt : List Char) : TreeBlock → TreeBlock → Prop
  | .leaf _ b, .leaf _ c => SameBlock dflt b c
  | .quote _ a bs, .quote _ a' cs => a.map (·.kind) = a'.map (·.kind) ∧ SameDoc dflt bs cs
  | .list _ s t items, .list _ s' t' items' => s = s' ∧ t = t' ∧ SameItems dflt items items'
  | .table _ a rows, .table _ a' rows' => a = a' ∧ rows = rows' ∧ SameDoc dflt (cellBlocks rows) (cellBlocks rows')
  | _, _ => False

def SameItems (dflt : List Char) : List (List TreeBlock) → List (List TreeBlock) → Prop
  | [], [] => True
  | a :: as, b :: bs => SameBlocks dflt a b ∧ SameItems dflt as bs
  | _, _ => False

def SameBlocks (dflt : List Char) : List TreeBlock → List TreeBlock → Prop
  | [], [] => True
  | a :: as, b :: bs => SameTree dflt a b ∧ SameBlocks dflt as bs
  | _, _ => False

end

/-- The block has a link with the text. -/
def HasLink (t : List Char) : CoreBlock → Prop
  | .heading _ ls => ∃ a, ContentReads ls a ∧ .link t ∈ a
  | .paragraph ls => ∃ a, ContentReads ls a ∧ .link t ∈ a
  | _ => False

/-- The links of the blocks lead to the same places with the other definitions. -/
def SameLinks (bs : List CoreBlock) (links links' : LinkMap) : Prop := ∀ b ∈ bs, ∀ t, HasLink t b → links' t = links t

/-- The same document: the same blocks and the same links. Where the definitions stand does not
matter. -/
def SameDocument (dflt : List Char) (d d' : List TreeBlock) : Prop :=
  SameBlocks dflt (shownTrees d) (shownTrees d') ∧ SameLinks (blocksLeaves d) (linksOf d) (linksOf d')

/-! ### Where the claim holds -/

/-- What may stand after what in an item: paragraphs and code blocks after a blank line; a list after
a paragraph, or after a blank line after a code block. -/
def mayStandAfter : TreeBlock → TreeBlock → Bool
  | _, .leaf g (.paragraph _) => g
  | _, .leaf g (.code _ _) => g
  | .leaf _ (.paragraph _), .list _ _ _ _ => true
  | .leaf _ (.code _ _), .list g _ _ _ => g
  | _, _ => false

/-- Consecutive blocks. -/
def follows (ok : TreeBlock → TreeBlock → Bool) : List TreeBlock → Bool
  | a :: b :: bs => ok a b && follows ok (b :: bs)
  | _ => true

/-- The blocks that stay in a block quote. -/
def CoreBlock.staysInQuote : CoreBlock → Bool
  | .paragraph _ => true
  | .code _ _ => true
  | .rule => true
  | _ => false

mutual

/-- The lists and block quotes that are written as one would like: items begin with a paragraph,
ordered lists begin with 1 and have at most 99 items, block quotes and alerts have no headings and
are not empty. -/
def regular : TreeBlock → Bool
  | .leaf _ _ => true
  | .quote _ _ bs => !bs.isEmpty && bs.all CoreBlock.staysInQuote
  | .list _ start _ items => (start = none || (start = some 1 && items.length ≤ 99)) && regularItems items
  | .table _ _ _ => true

def regularItems : List (List TreeBlock) → Bool
  | [] => true
  | it :: its => (it.head?.any TreeBlock.isPara && follows mayStandAfter it && regularBlocks it) && regularItems its

def regularBlocks : List TreeBlock → Bool
  | [] => true
  | b :: bs => regular b && regularBlocks bs

end

/-- Two lists of the same kind would become one. -/
def notBothLists : TreeBlock → TreeBlock → Bool
  | .list _ s _ _, .list _ t _ _ => s.isSome != t.isSome
  | _, _ => true

/-- The options: all list markers are four columns wide. -/
structure NestedOptions (o : Options) : Prop extends CoreOptions o where
  bullet : o.leadingSpaces + 1 + o.trailingSpaces = 4
  trailing : 1 ≤ o.trailingSpaces
  indent : o.indentWidth = 4
  orderedIndent : o.orderedListIndentWidth = 4
  unorderedMarker : o.unorderedMarker = '-' ∨ o.unorderedMarker = '*' ∨ o.unorderedMarker = '+'
  oddMarker : o.oddLevelMarker = '.' ∨ o.oddLevelMarker = ')'
  evenMarker : o.evenLevelMarker = '.' ∨ o.evenLevelMarker = ')'

/-- A parser that agrees with the reader. -/
def AgreesTree (parse : List Char → Node) : Prop := ∀ source d, ReadsAs source d → IsDocument source d (parse source)

end Hongdown.Spec
