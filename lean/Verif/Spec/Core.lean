import Verif.Spec.HeadingRead
import Verif.Spec.Code
import Verif.Spec.Content

/-!
# Reading a core of Markdown

A reader for documents of headings, paragraphs, fenced code blocks and thematic breaks at the top
level (CommonMark 4.1 to 4.3, 4.5, 4.8); headings and paragraphs have text with code spans,
emphasis, images and links, as in `Verif.Spec.Content`. It gives up (`none`) on everything that could be something
else, so that a CommonMark parser agrees with it where it does not give up. Documents with lists,
links and their definitions (4.7) are read in `Verif.Spec.Nested`.
-/

namespace Hongdown.Spec
open Model

/-- The blocks. Headings and paragraphs have their lines, definitions a label, an address and a title. -/
inductive CoreBlock where
  | heading (level : Nat) (ls : List (List Char))
  | paragraph (ls : List (List Char))
  | code (info : List Char) (ls : List (List Char))
  | rule
  | definition (label : List Char) (target : List Char × List Char)
  deriving DecidableEq

/-- A word of a line of text: at least one letter, no marker of a block, no two backticks in a row,
no end of a label, no number sign at its ends. Whether its characters mean anything to Markdown is left to
`Verif.Spec.Content`. -/
def CoreWord (w : List Char) : Prop :=
  (∀ c ∈ w, rawChar c = true) ∧ (∃ c ∈ w, letterLike c = true) ∧ (startsBlock w = false ∨ w.head? = some '[') ∧
    ¬ ['`', '`'] <:+: w ∧ ¬ [']', ':'] <:+: w ∧ w.head? ≠ some '#' ∧ w.getLast? ≠ some '#'

instance (w : List Char) : Decidable (CoreWord w) := by unfold CoreWord; infer_instance

/-- Words with single spaces between. -/
def TextLine (l : List Char) : Prop := ∀ w ∈ splitOn ' ' l, CoreWord w

instance (l : List Char) : Decidable (TextLine l) := by unfold TextLine; infer_instance

/-- A thematic break: up to three spaces, then three or more of a marker, with blanks between. -/
def isRule (line : List Char) : Bool :=
  (line.takeWhile (· = ' ')).length ≤ 3 &&
  [('*' : Char), '-', '_'].any fun m =>
    (line.dropWhile (· = ' ')).head? = some m && (line.all fun c => c = m || blankChar c) && 3 ≤ line.count m

/-- The kinds of lines. -/
inductive LineKind where
  | blank
  | rule
  | text
  | heading (level : Nat) (text : List Char)
  | fence (f : Fence)
  | definition (label : List Char) (target : List Char × List Char)
  | other

/-- The definition of a link. -/
def definitionLine (l : List Char) : Option (List Char × (List Char × List Char)) :=
  match readDefinition l with
  | some (label, target) => if LinkOk label ∧ TargetOk target then some (label, target) else none
  | none => none

def lineKind (l : List Char) : LineKind :=
  if l.all blankChar then .blank
  else if isRule l then .rule
  else if TextLine l then .text
  else match atxLine l with
    | some (level, t) => if TextLine t then .heading level t else .other
    | none => match readOpening l with
      | some f => if l.head? = some f.char ∧ '\\' ∉ f.info ∧ '&' ∉ f.info then .fence f else .other
      | none => match definitionLine l with
        | some (label, target) => .definition label target
        | none => .other

/-- After a definition: the end, a blank line or another definition. A line of text could be a title. -/
def afterDefinition : List (List Char) → Bool
  | [] => true
  | l :: _ => match lineKind l with
    | .blank => true
    | .definition _ _ => true
    | _ => false

/-- What the reader is in: nothing, a paragraph, a code block. -/
inductive ReadMode where
  | none
  | paragraph (ls : List (List Char))
  | code (f : Fence) (ls : List (List Char))

/-- Read lines. A code block must be closed. Definitions are not read. -/
def readLines : ReadMode → List (List Char) → Option (List CoreBlock)
  | .none, [] => some []
  | .paragraph ls, [] => some [.paragraph ls]
  | .code _ _, [] => none
  | .code f ls, l :: rest =>
    if isClosing f.char f.length l then (readLines .none rest).map (.code f.info ls :: ·)
    else readLines (.code f (ls ++ [l])) rest
  | .none, l :: rest =>
    match lineKind l with
    | .blank => readLines .none rest
    | .rule => (readLines .none rest).map (.rule :: ·)
    | .text => readLines (.paragraph [l]) rest
    | .heading level t => (readLines .none rest).map (.heading level [t] :: ·)
    | .fence f => readLines (.code f []) rest
    | .definition _ _ => none
    | .other => none
  | .paragraph ls, l :: rest =>
    match underline l with
    | some level => (readLines .none rest).map (.heading level ls :: ·)
    | none =>
      match lineKind l with
      | .blank => (readLines .none rest).map (.paragraph ls :: ·)
      | .rule =>
        if (underline (strip l)).isSome then none else (readLines .none rest).map ([.paragraph ls, .rule] ++ ·)
      | .text => readLines (.paragraph (ls ++ [l])) rest
      | .heading level t => (readLines .none rest).map ([.paragraph ls, .heading level [t]] ++ ·)
      | .fence f => (readLines (.code f []) rest).map (.paragraph ls :: ·)
      | .definition _ _ => none
      | .other => none

/-- Read a document. One that begins with `---` may have front matter. -/
def readCore (source : List Char) : Option (List CoreBlock) :=
  if '\r' ∈ source ∨ '\x00' ∈ source ∨ (splitOn '\n' source).head? = some ['-', '-', '-'] then none
  else readLines .none (splitOn '\n' source)

/-- The text of headings and paragraphs has content, and its links are defined. -/
def HasContent (links : LinkMap) : CoreBlock → Prop
  | .heading _ ls => ∃ a, ContentReads ls a ∧ Linked links a
  | .paragraph ls => ∃ a, ContentReads ls a ∧ Linked links a
  | _ => True

/-- Nothing is linked. -/
def noLinks : LinkMap := fun _ => none

/-- What a document reads as. -/
def ReadsCore (source : List Char) (d : List CoreBlock) : Prop :=
  readCore source = some d ∧ ∀ b ∈ d, HasContent noLinks b

/-- The node for a block. -/
def BlockNode (source : List Char) (links : LinkMap) : CoreBlock → Node → Prop
  | .heading level ls, n => ∃ p cs, n = .mk (.heading level) p cs ∧ LineNodes source links ls cs
  | .paragraph ls, n => ∃ p cs, n = .mk .paragraph p cs ∧ LineNodes source links ls cs ∧ StandsAt source p (joinWith ['\n'] ls)
  | .code info ls, n => ∃ p, n = .mk (.codeBlock info (unlines ls)) p []
  | .rule, n => ∃ p, n = .mk .thematicBreak p []
  | .definition _ _, _ => False

/-- The nodes for the blocks of a document. -/
def BlockNodes (source : List Char) (links : LinkMap) : List CoreBlock → List Node → Prop
  | [], ns => ns = []
  | b :: bs, ns => ∃ n rest, ns = n :: rest ∧ BlockNode source links b n ∧ BlockNodes source links bs rest

/-- A tree for a document. -/
def IsTree (source : List Char) (d : List CoreBlock) (root : Node) : Prop :=
  ∃ p ns, root = .mk .document p ns ∧ BlockNodes source noLinks d ns

/-- The words of lines. -/
def lineWords (ls : List (List Char)) : List (List Char) := ls.flatMap (splitOn ' ')

/-- The same block up to line breaks; a code block may have got the default language. -/
def SameBlock (dflt : List Char) : CoreBlock → CoreBlock → Prop
  | .heading level ls, .heading level' ls' => level = level' ∧ lineWords ls = lineWords ls' ∧ SameContent ls ls'
  | .paragraph ls, .paragraph ls' => lineWords ls = lineWords ls' ∧ SameContent ls ls'
  | .code info ls, .code info' ls' => info' = shownInfo dflt info ∧ ls = ls'
  | .rule, .rule => True
  | .definition label target, .definition label' target' => label = label' ∧ target = target'
  | _, _ => False

def SameDoc (dflt : List Char) : List CoreBlock → List CoreBlock → Prop
  | [], [] => True
  | b :: bs, c :: cs => SameBlock dflt b c ∧ SameDoc dflt bs cs
  | _, _ => False

/-- The options: no sentence case, no formatters, a fence, a thematic break that is one and that is
not `---`, a default language that can stand after a fence, patterns for dashes that plain words do
not have. -/
structure CoreOptions (o : Options) : Prop where
  sentenceCase : o.headingSentenceCase = false
  formatters : o.codeFormatters = []
  fence : o.fenceChar = '`' ∨ o.fenceChar = '~'
  fenceLength : 3 ≤ o.minFenceLength
  rule : isRule (spaces o.thematicBreakLeadingSpaces ++ o.thematicBreakStyle) = true
  noFrontMatter : spaces o.thematicBreakLeadingSpaces ++ o.thematicBreakStyle ≠ ['-', '-', '-']
  language : strip o.defaultLanguage = o.defaultLanguage ∧ trim o.defaultLanguage = o.defaultLanguage ∧
    ∀ c ∈ o.defaultLanguage, c ≠ '\n' ∧ c ≠ '\r' ∧ c ≠ '\x00' ∧ c ≠ '\\' ∧ c ≠ '&'
  dashes : ∀ p, o.punct.enDash = some p ∨ o.punct.emDash = some p →
    ['-', '-'] <:+: p ∨ ∃ c ∈ p, plainChar c = false ∧ c ≠ ' '

/-- The quotation marks and apostrophes of text are left as they are: there are none, or the options say so.
Characters that are letters in ASCII are letters. -/
def MarksKept (cx : Cx) (t : List Char) : Prop :=
  ('"' ∈ t → cx.opts.punct.curlyDouble = false) ∧
    ('\'' ∈ t → cx.opts.punct.curlyApostrophes = false ∧ ∀ c : Char, c.isAlpha = true → cx.uni.alphabetic c = true)

/-- A link to another site, with its address. -/
def OtherSite : Run → Prop
  | .direct false _ url => external url
  | _ => False

/-- The same for lines with content, which have no links to other sites with their addresses. -/
def LinesKept (cx : Cx) (ls : List (List Char)) : Prop :=
  ∀ a, ContentReads ls a → MarksKept cx (a.flatMap runWords) ∧ ∀ r ∈ a, ¬ OtherSite r

/-- The same with the text of links and images only. -/
def LinkMarksKept (cx : Cx) (ls : List (List Char)) : Prop :=
  ∀ a, ContentReads ls a → MarksKept cx (a.flatMap linkWords) ∧ ∀ r ∈ a, ¬ OtherSite r

/-- What is needed of the blocks: headings have a width, info strings can stand after the fence, and no
quotation marks are to be replaced. -/
def BlockFits (cx : Cx) : CoreBlock → Prop
  | .heading _ ls => 0 < cx.width (joinWith [' '] ls) ∧ LinesKept cx ls
  | .paragraph ls => LinesKept cx ls
  | .code info _ => InfoFits cx.opts.fenceChar cx.opts.spaceAfterFence (shownInfo cx.opts.defaultLanguage info)
  | _ => True

/-- The document begins with front matter (delimiter `---`, src/lib.rs:214): a first line `---` and
another one later. -/
def HasFrontMatter (source : List Char) : Prop :=
  ∃ rest, splitOn '\n' source = ['-', '-', '-'] :: rest ∧ ['-', '-', '-'] ∈ rest

/-- A parser that agrees with the reader. -/
def Agrees (parse : List Char → Node) : Prop := ∀ source d, ReadsCore source d → IsTree source d (parse source)

end Hongdown.Spec
