import Verif.Model.Inline

/-!
# The text of the blocks of a document
-/

namespace Hongdown.Spec

open Model

mutual
/-- The text of the blocks of a tree in order. `par` is the text of a paragraph with a given
position and content, `head` that of a heading, `cell` that of a table cell. Footnote definitions
and inline nodes outside of paragraphs, headings and cells do not count. -/
def blockText (par : Pos → List Node → List Char) (head cell : List Node → List Char) : Node → List Char
  | .mk v p cs =>
    match v with
    | .paragraph => par p cs
    | .heading _ => head cs
    | .codeBlock _ code => code
    | .htmlBlock html => html
    | .frontMatter content => content
    | .table _ => (cs.flatMap Node.children).flatMap fun c => cell c.children
    | .document => blockTexts par head cell cs
    | .list _ _ => blockTexts par head cell cs
    | .item => blockTexts par head cell cs
    | .taskItem _ => blockTexts par head cell cs
    | .blockQuote => blockTexts par head cell cs
    | .alert _ _ => blockTexts par head cell cs
    | .descriptionList => blockTexts par head cell cs
    | .descriptionItem => blockTexts par head cell cs
    | .descriptionTerm => blockTexts par head cell cs
    | .descriptionDetails => blockTexts par head cell cs
    | .other => blockTexts par head cell cs
    | _ => []

def blockTexts (par : Pos → List Node → List Char) (head cell : List Node → List Char) : List Node → List Char
  | [] => []
  | n :: ns => blockText par head cell n ++ blockTexts par head cell ns
end

mutual
/-- The text of an inline node: its text nodes and, outside of links and images, its code spans.
Nodes in `skip` do not count. -/
def inlineText (skip : Node → Bool) (inLink : Bool) : Node → List Char
  | .mk v p cs =>
    if skip (.mk v p cs) then []
    else match v with
      | .text t => t
      | .code code => if inLink then [] else code
      | .link _ _ => inlineTexts skip true cs
      | .image _ _ => inlineTexts skip true cs
      | .softBreak => []
      | .lineBreak => []
      | .htmlInline _ => []
      | .footnoteReference _ => []
      | _ => inlineTexts skip inLink cs

def inlineTexts (skip : Node → Bool) (inLink : Bool) : List Node → List Char
  | [] => []
  | n :: ns => inlineText skip inLink n ++ inlineTexts skip inLink ns
end

/-- The text of a document without the nodes in `skip`. -/
def docText (skip : Node → Bool) : Node → List Char :=
  blockText (fun p cs => if skip (.mk .paragraph p cs) then [] else inlineTexts skip false cs)
    (inlineTexts skip false) (inlineTexts skip false)

/-- Is the text of the node its own, so that it is not taken from the source instead? A text
node needs a source without references, a code span one which has its code, a link or an image one
which is not in reference style, and a paragraph one that is no abbreviation definition. -/
def OwnText (cx : Cx) (keep : Char → Bool) (n : Node) : Prop :=
  match n.value with
  | .text _ => ∀ src, extractSource cx n.pos = some src → '&' ∉ src
  | .code code => ∀ src, extractSource cx n.pos = some src → (code.filter keep).Sublist (src.filter keep)
  | .link _ _ => referenceStyleInfo cx n.pos = none
  | .image _ _ => referenceStyleInfo cx n.pos = none
  | .paragraph => ∀ src, extractSource cx n.pos = some src →
      ¬ (['*', '['] <+: trim src ∧ [']', ':'] <:+: trim src)
  | _ => True

/-- Characters that punctuation conversion leaves alone, other than whitespace and the character
which stands for a soft line break. -/
structure Counted (o : PunctOpts) (keep : Char → Bool) : Prop where
  visible : ∀ c, keep c = true → isWs c = false ∧ c ≠ '\x00'
  em : ∀ p ∈ o.emDash, ∀ c ∈ p, keep c = false
  en : ∀ p ∈ o.enDash, ∀ c ∈ p, keep c = false
  dot : o.ellipsis = true → keep '.' = false
  double : o.curlyDouble = true → keep '"' = false
  single : o.curlySingle = true → keep '\'' = false
  apostrophe : o.curlyApostrophes = true → keep '\'' = false

/-- The name of a footnote definition. -/
def noteName (n : Node) : Option (List Char) :=
  match n.value with
  | .footnoteDefinition name => some name
  | _ => none

mutual
/-- No footnote definition inside. -/
def noteFree : Node → Bool
  | .mk v p cs => (noteName (.mk v p cs)).isNone && noteFreeList cs

def noteFreeList : List Node → Bool
  | [] => true
  | n :: ns => noteFree n && noteFreeList ns
end

/-- The content of a footnote all of which is written: one with a code block, a quote, a list or a
table, or one of paragraphs only. -/
def NoteKept (cs : List Node) : Prop :=
  (∃ n ∈ cs, match n.value with
    | .codeBlock _ _ => True
    | .blockQuote => True
    | .list _ _ => True
    | .table _ => True
    | _ => False) ∨ ∀ n ∈ cs, n.value = .paragraph

end Hongdown.Spec
