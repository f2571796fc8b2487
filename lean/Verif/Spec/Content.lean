import Verif.Spec.HeadingRead
import Verif.Spec.Source
import Verif.Spec.Refs

/-!
# Run content

Plain text with code spans, emphasis, links and images (CommonMark 6.1 to 6.4), described by a grammar: content
is a list of pieces, its text is what the pieces are written as, and pieces are well-formed where a
CommonMark parser can read them back in one way only.
-/

namespace Hongdown.Spec
open Model

/-- Letters and digits; all other scripts count as letters. -/
def letterLike (c : Char) : Bool := c.isAlphanum || 127 < c.toNat

/-- A character of a plain word: a letter, a digit, or punctuation that means nothing to Markdown
inside of a word. The byte order mark is left out. -/
def plainChar (c : Char) : Bool :=
  c.isAlphanum || (127 < c.toNat && !isWs c && c ≠ '\uFEFF') ||
    [',', ';', ':', '.', '?', '!', '(', ')', '/', '%', '@', '$', '+', '-', '"', '\''].contains c

/-- A character of a line of text: one of a plain word, of a code span, or a delimiter. -/
def rawChar (c : Char) : Bool :=
  plainChar c || ['*', '_', '`', '=', '<', '>', '"', '\'', '&', '\\', '[', ']', '{', '}', '|', '^', '#'].contains c

/-- Blanks: spaces and line breaks. -/
def gapChar (c : Char) : Bool := c = ' ' || c = '\n'

/-- Text or a code span. -/
inductive Span where
  | text (t : List Char)
  | code (t : List Char)
  deriving DecidableEq

/-- Text, a code span, emphasis of text and code spans with its delimiter, a shortcut reference link, or
an image or a link with its address. -/
inductive Run where
  | span (s : Span)
  | emph (delim : Char) (strong : Bool) (inner : List Span)
  | link (t : List Char)
  | direct (image : Bool) (t url : List Char)
  deriving DecidableEq

/-! ### How content is written -/

def spanText : Span → List Char
  | .text t => t
  | .code t => ['`'] ++ t ++ ['`']

def spansText (ss : List Span) : List Char := ss.flatMap spanText

def emphMark (d : Char) (strong : Bool) : List Char := if strong then [d, d] else [d]

/-- The mark before an image. -/
def bangOf (image : Bool) : List Char := if image then ['!'] else []

def runText : Run → List Char
  | .span s => spanText s
  | .emph d strong inner => emphMark d strong ++ spansText inner ++ emphMark d strong
  | .link t => ['['] ++ t ++ [']']
  | .direct image t url => bangOf image ++ (['['] ++ t ++ [']']) ++ (['('] ++ url ++ [')'])

def runsText (a : List Run) : List Char := a.flatMap runText

/-! ### Which content can be read back -/

/-- Apostrophes stand between letters; `prev` is the character before. -/
def inWords : Option Char → List Char → Bool
  | _, [] => true
  | prev, c :: r => (c ≠ '\'' || (prev.any Char.isAlpha && r.head?.any Char.isAlpha)) && inWords (some c) r

/-- Text: plain words and blanks, no two hyphens and no three periods in a row, no apostrophes but between
letters. Code spans: something
on one line, with no blanks at its ends and no backtick. -/
def SpanOk : Span → Prop
  | .text t => t ≠ [] ∧ (∀ c ∈ t, plainChar c = true ∨ gapChar c = true) ∧ ¬ ['-', '-'] <:+: t ∧ ¬ ['.', '.', '.'] <:+: t ∧ inWords none t = true
  | .code t => t ≠ [] ∧ (∀ c ∈ t, (rawChar c = true ∧ c ≠ '`') ∨ c = ' ') ∧ t.head? ≠ some ' ' ∧ t.getLast? ≠ some ' '

instance (s : Span) : Decidable (SpanOk s) := by cases s <;> unfold SpanOk <;> infer_instance

/-- Text is not next to text, code not next to code. -/
def differ : Span → Span → Bool
  | .text _, .code _ => true
  | .code _, .text _ => true
  | _, _ => false

def SpansOk : List Span → Prop
  | [] => True
  | s :: r => SpanOk s ∧ (∀ u ∈ r.head?, differ s u = true) ∧ SpansOk r

instance : (ss : List Span) → Decidable (SpansOk ss)
  | [] => .isTrue trivial
  | s :: r => by
    have := instDecidableSpansOk r
    unfold SpansOk
    exact inferInstance

/-- A delimiter after `prev` and before `first` opens emphasis and closes none: it stands after a
blank or at the start, or between a parenthesis and a letter (left-flanking, not right-flanking). -/
def opens (prev first : Option Char) : Bool :=
  (prev.all gapChar && first.any fun c => !gapChar c) || (prev = some '(' && first.any Char.isAlphanum)

/-- A delimiter after `last` and before `next` closes emphasis: it stands after no blank, and before a
blank, some punctuation, or the end. -/
def closes (last next : Option Char) : Bool :=
  (last.any fun c => !gapChar c) && next.all fun c => gapChar c || [',', ';', ':', '.', '?', '!', ')'].contains c

/-- The first piece, if it is no emphasis. -/
def firstSpan : List Run → Option Span
  | .span s :: _ => some s
  | _ => none

/-- The text of a link: words of ASCII characters on one line. A single character could be the box of
a task item. -/
def LinkOk (t : List Char) : Prop :=
  2 ≤ t.length ∧ (∀ c ∈ t, (plainChar c = true ∧ c.toNat < 128) ∨ c = ' ') ∧ t.head? ≠ some ' ' ∧ t.getLast? ≠ some ' ' ∧
    ¬ [' ', ' '] <:+: t ∧ ¬ ['-', '-'] <:+: t ∧ ¬ ['.', '.', '.'] <:+: t ∧ inWords none t = true

instance (t : List Char) : Decidable (LinkOk t) := by unfold LinkOk; infer_instance

/-- An address that a link is written as a reference for. -/
def external (url : List Char) : Prop := ['h', 't', 't', 'p', ':', '/', '/'] <+: url ∨ ['h', 't', 't', 'p', 's', ':', '/', '/'] <+: url

instance (url : List Char) : Decidable (external url) := by unfold external; infer_instance

/-- An address: plain characters without parentheses. The address of a link is not its text. -/
def AddressOk (image : Bool) (t url : List Char) : Prop :=
  url ≠ [] ∧ (∀ c ∈ url, (plainChar c = true ∧ c ≠ '(' ∧ c ≠ ')') ∨ c ∈ ['_', '=', '#']) ∧ (image = true ∨ t ≠ url)

instance (image : Bool) (t url : List Char) : Decidable (AddressOk image t url) := by unfold AddressOk; infer_instance

/-- A link may stand after the character, or at the start. -/
def beforeLink (c : Char) : Bool := gapChar c || c = '('

/-- A link may stand before the character, or at the end. -/
def afterLink (c : Char) : Bool := gapChar c || [',', ';', '.', '?', '!', ')'].contains c

/-- Content after the character `prev`. -/
def RunsOk : Option Char → List Run → Prop
  | _, [] => True
  | _, .span s :: r => SpanOk s ∧ (∀ u ∈ firstSpan r, differ s u = true) ∧ RunsOk (spanText s).getLast? r
  | prev, .emph d _ inner :: r => (d = '*' ∨ d = '_') ∧ SpansOk inner ∧ opens prev (spansText inner).head? = true ∧
      closes (spansText inner).getLast? (runsText r).head? = true ∧ RunsOk (some d) r
  | prev, .link t :: r => LinkOk t ∧ prev.all beforeLink = true ∧ (runsText r).head?.all afterLink = true ∧ RunsOk (some ']') r
  | prev, .direct image t url :: r => (LinkOk t ∧ AddressOk image t url) ∧ prev.all beforeLink = true ∧
      (runsText r).head?.all afterLink = true ∧ RunsOk (some ')') r

instance : (p : Option Char) → (a : List Run) → Decidable (RunsOk p a)
  | _, [] => .isTrue trivial
  | _, .span s :: r => by
    have := instDecidableRunsOk (spanText s).getLast? r
    unfold RunsOk
    exact inferInstance
  | _, .emph d _ _ :: r => by
    have := instDecidableRunsOk (some d) r
    unfold RunsOk
    exact inferInstance
  | _, .link _ :: r => by
    have := instDecidableRunsOk (some ']') r
    unfold RunsOk
    exact inferInstance
  | _, .direct _ _ _ :: r => by
    have := instDecidableRunsOk (some ')') r
    unfold RunsOk
    exact inferInstance

/-- The content of lines of text. -/
def ContentReads (ls : List (List Char)) (a : List Run) : Prop := runsText a = joinWith ['\n'] ls ∧ RunsOk none a

instance (ls : List (List Char)) (a : List Run) : Decidable (ContentReads ls a) := by unfold ContentReads; infer_instance

/-- The text of content without code spans and addresses. -/
def spanWords : Span → List Char
  | .text t => t
  | .code _ => []

def runWords : Run → List Char
  | .span s => spanWords s
  | .emph _ _ inner => inner.flatMap spanWords
  | .link t => t
  | .direct _ t _ => t

/-- The text of links and images. -/
def linkWords : Run → List Char
  | .link t => t
  | .direct _ t _ => t
  | _ => []

/-! ### The same content up to line breaks -/

/-- A line break is as good as a space. -/
def flatChar (c : Char) : Char := if c = '\n' then ' ' else c

def flatSpan : Span → Span
  | .text t => .text (t.map flatChar)
  | .code t => .code t

def flatRun : Run → Run
  | .span s => .span (flatSpan s)
  | .emph d strong inner => .emph d strong (inner.map flatSpan)
  | .link t => .link t
  | .direct image t url => .direct image t url

/-- The lines have the same content up to line breaks. -/
def SameContent (ls ls' : List (List Char)) : Prop :=
  ∃ a b, ContentReads ls a ∧ ContentReads ls' b ∧ a.map flatRun = b.map flatRun

/-! ### Where links lead -/

/-- Address and title of links, by their text. -/
abbrev LinkMap := List Char → Option (List Char × List Char)

/-- An address and a title that can be written without escapes. -/
def TargetOk (target : List Char × List Char) : Prop :=
  plainUrl target.1 = true ∧ plainTitle target.2 = true ∧ '&' ∉ target.1 ∧ ∀ c ∈ target.2, c ≠ '&' ∧ c ≠ '\r' ∧ c ≠ '\x00'

instance (target : List Char × List Char) : Decidable (TargetOk target) := by unfold TargetOk; infer_instance

/-- Labels match up to case. -/
def foldLabel (t : List Char) : List Char := t.map Char.toLower

/-- The first definition with the label counts. -/
def resolve (defs : List (List Char × (List Char × List Char))) : LinkMap := fun t =>
  (defs.find? fun e => foldLabel e.1 = foldLabel t).map (·.2)

/-- The links of content are defined. -/
def Linked (links : LinkMap) (a : List Run) : Prop := ∀ t, .link t ∈ a → (links t).isSome = true

/-! ### The nodes -/

/-- A piece of text stands at a position in the source. -/
def StandsAt (source : List Char) (p : Pos) (text : List Char) : Prop :=
  ∃ before after, source = before ++ text ++ after ∧
    p = ⟨lineAfter before, bytesAfter before + 1, lineAfter (before ++ text), bytesAfter (before ++ text)⟩

/-- The nodes for text without line breaks. -/
def PartNodes (source l : List Char) (ns : List Node) : Prop :=
  (l = [] ∧ ns = []) ∨ ∃ p, l ≠ [] ∧ ns = [.mk (.text l) p []] ∧ StandsAt source p l

/-- The nodes for parts of lines: soft breaks between. -/
def TextNodes (source : List Char) : List (List Char) → List Node → Prop
  | [], ns => ns = []
  | [l], ns => PartNodes source l ns
  | l :: ls, ns => ∃ a q rest, ns = a ++ .mk .softBreak q [] :: rest ∧ PartNodes source l a ∧ TextNodes source ls rest

/-- The nodes for text, or for a code span. The position of a code span is with or without its
backticks. -/
def SpanNodes (source : List Char) : Span → List Node → Prop
  | .text t, ns => TextNodes source (splitOn '\n' t) ns
  | .code t, ns => ∃ p, ns = [.mk (.code t) p []] ∧ (StandsAt source p (['`'] ++ t ++ ['`']) ∨ StandsAt source p t)

def SpansNodes (source : List Char) : List Span → List Node → Prop
  | [], ns => ns = []
  | s :: r, ns => ∃ a b, ns = a ++ b ∧ SpanNodes source s a ∧ SpansNodes source r b

/-- The source of a link: a shortcut reference, or an inline link to an external address other than
its text. -/
def LinkSource (t : List Char) (target : List Char × List Char) (raw : List Char) : Prop :=
  raw = ['['] ++ t ++ [']'] ∨
    ∃ x, raw = ['['] ++ t ++ [']'] ++ x ∧ raw.getLast? = some ')' ∧ readInlineTarget x = some (target, []) ∧ external target.1 ∧ t ≠ target.1

/-- The nodes for content. The source of emphasis begins and ends with its delimiter. -/
def RunNodes (source : List Char) (links : LinkMap) : List Run → List Node → Prop
  | [], ns => ns = []
  | .span s :: r, ns => ∃ a b, ns = a ++ b ∧ SpanNodes source s a ∧ RunNodes source links r b
  | .emph d strong inner :: r, ns => ∃ p cs b raw, ns = .mk (if strong then .strong else .emph) p cs :: b ∧
      SpansNodes source inner cs ∧ StandsAt source p raw ∧ emphMark d strong <+: raw ∧ raw.getLast? = some d ∧
      RunNodes source links r b
  | .link t :: r, ns => ∃ p cs b raw url title, ns = .mk (.link url title) p cs :: b ∧ links t = some (url, title) ∧
      PartNodes source t cs ∧ StandsAt source p raw ∧ LinkSource t (url, title) raw ∧ RunNodes source links r b
  | .direct image t url :: r, ns => ∃ p cs b, ns = .mk (if image then .image url [] else .link url []) p cs :: b ∧
      PartNodes source t cs ∧ StandsAt source p (runText (.direct image t url)) ∧ RunNodes source links r b

/-- The nodes for lines of text. -/
def LineNodes (source : List Char) (links : LinkMap) (ls : List (List Char)) (ns : List Node) : Prop :=
  ∃ a, ContentReads ls a ∧ RunNodes source links a ns

end Hongdown.Spec
