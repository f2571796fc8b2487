import Verif.Spec.Nested

/-!
# Documents with their quotation marks replaced

The same document, but with straight quotation marks and apostrophes of its text replaced by curly
ones where the options say so.
-/

namespace Hongdown.Spec
open Model

/-- What stands for a character. -/
def CurledChar (o : PunctOpts) (c d : Char) : Prop :=
  if c = '"' ∧ o.curlyDouble = true then d = '“' ∨ d = '”'
  else if c = '\'' ∧ o.curlyApostrophes = true then d = '’'
  else d = c

def CurledText (o : PunctOpts) : List Char → List Char → Prop
  | [], [] => True
  | c :: s, d :: t => CurledChar o c d ∧ CurledText o s t
  | _, _ => False

/-- Code spans stay. -/
def CurledSpan (o : PunctOpts) : Span → Span → Prop
  | .text t, .text t' => CurledText o t t'
  | .code t, .code t' => t = t'
  | _, _ => False

def CurledSpans (o : PunctOpts) : List Span → List Span → Prop
  | [], [] => True
  | s :: r, s' :: r' => CurledSpan o s s' ∧ CurledSpans o r r'
  | _, _ => False

/-- Links and images stay. -/
def CurledRun (o : PunctOpts) : Run → Run → Prop
  | .span s, .span s' => CurledSpan o s s'
  | .emph d strong inner, .emph d' strong' inner' => d = d' ∧ strong = strong' ∧ CurledSpans o inner inner'
  | .link t, .link t' => t = t'
  | .direct image t url, .direct image' t' url' => image = image' ∧ t = t' ∧ url = url'
  | _, _ => False

def CurledRuns (o : PunctOpts) : List Run → List Run → Prop
  | [], [] => True
  | r :: a, r' :: a' => CurledRun o r r' ∧ CurledRuns o a a'
  | _, _ => False

def CurledLines (o : PunctOpts) (ls ls' : List (List Char)) : Prop :=
  ls.length = ls'.length ∧ ∃ a a', ContentReads ls a ∧ ContentReads ls' a' ∧ CurledRuns o a a'

def CurledBlock (o : PunctOpts) : CoreBlock → CoreBlock → Prop
  | .heading level ls, .heading level' ls' => level = level' ∧ CurledLines o ls ls'
  | .paragraph ls, .paragraph ls' => CurledLines o ls ls'
  | .code info ls, .code info' ls' => info = info' ∧ ls = ls'
  | .rule, .rule => True
  | .definition label target, .definition label' target' => label = label' ∧ target = target'
  | _, _ => False

def CurledDoc (o : PunctOpts) : List CoreBlock → List CoreBlock → Prop
  | [], [] => True
  | b :: bs, c :: cs => CurledBlock o b c ∧ CurledDoc o bs cs
  | _, _ => False

/-- A cell of a table is treated like a paragraph. -/
def mapCell (f : CoreBlock → CoreBlock) (c : List Char) : List Char :=
  if c = [] then [] else match f (.paragraph [c]) with
    | .paragraph [c'] => c'
    | _ => c

/-! A document with its blocks that are no lists, quotes or tables replaced. -/

mutual

def mapTree (f : CoreBlock → CoreBlock) : TreeBlock → TreeBlock
  | .leaf g b => .leaf g (f b)
  | .quote g a bs => .quote g a (bs.map f)
  | .list g start tight items => .list g start tight (mapItems f items)
  | .table g aligns rows => .table g aligns (rows.map fun r => r.map (mapCell f))

def mapItems (f : CoreBlock → CoreBlock) : List (List TreeBlock) → List (List TreeBlock)
  | [] => []
  | it :: its => mapTrees f it :: mapItems f its

def mapTrees (f : CoreBlock → CoreBlock) : List TreeBlock → List TreeBlock
  | [] => []
  | b :: bs => mapTree f b :: mapTrees f bs

end

/-- Letters of ASCII are letters. -/
def AsciiLetters (u : Uni) : Prop := ∀ c : Char, c.isAlpha = true → u.alphabetic c = true ∧ u.alphanumeric c = true

/-- What is needed of the blocks: no marks are to be replaced in links and images, headings have a width
whatever becomes of their marks, info strings can stand after the fence. -/
def BlockMarks (cx : Cx) : CoreBlock → Prop
  | .heading _ ls => LinkMarksKept cx ls ∧ ∀ ls', CurledLines cx.opts.punct ls ls' → 0 < cx.width (joinWith [' '] ls')
  | .paragraph ls => LinkMarksKept cx ls
  | .code info _ => InfoFits cx.opts.fenceChar cx.opts.spaceAfterFence (shownInfo cx.opts.defaultLanguage info)
  | _ => True

end Hongdown.Spec
