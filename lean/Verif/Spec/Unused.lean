import Verif.Model.Document
import Verif.Spec.Tree

/-!
# What the settings are for (README.md:200-256)
-/

namespace Hongdown.Spec
open Model

mutual
/-- The kinds of all nodes of a tree. -/
def kinds : Node → List NodeValue
  | .mk v _ cs => v :: kindsList cs

def kindsList : List Node → List NodeValue
  | [] => []
  | n :: ns => kinds n ++ kindsList ns
end

/-- Two sets of punctuation settings have the same values for what is in a text: the dashes count if their pattern is in it,
the ellipsis if three periods are, and quotation marks and apostrophes if the straight ones are. -/
structure SamePunct (o o' : PunctOpts) (t : List Char) : Prop where
  em : o.emDash = o'.emDash ∨ ∀ p, o.emDash = some p ∨ o'.emDash = some p → ¬ p <:+: t
  en : o.enDash = o'.enDash ∨ ∀ p, o.enDash = some p ∨ o'.enDash = some p → ¬ p <:+: t ∧ '—' ∉ p
  ellipsis : ['.', '.', '.'] <:+: t → o.ellipsis = o'.ellipsis
  double : '"' ∈ t → o.curlyDouble = o'.curlyDouble
  single : '\'' ∈ t → o.curlySingle = o'.curlySingle ∧ o.curlyApostrophes = o'.curlyApostrophes

/-- Two sets of options have the same values for the kinds of nodes in `V`: the line width is for
paragraphs and footnotes, the section `heading` for headings (nouns only if sentence case is on),
`unordered_list` and `ordered_list` for those lists, `code_block` for code blocks (the default language
for those without a language), `thematic_break` for thematic breaks and `punctuation` for text with the marks.
`trailing_spaces` also counts for ordered lists in descriptions. -/
structure SameFor (V : NodeValue → Prop) (o o' : Options) : Prop where
  lineWidth : (V .paragraph ∨ ∃ n, V (.footnoteDefinition n)) → o.lineWidth = o'.lineWidth
  setextH1 : V (.heading 1) → o.setextH1 = o'.setextH1
  setextH2 : V (.heading 2) → o.setextH2 = o'.setextH2
  sentenceCase : (∃ l, V (.heading l)) → o.headingSentenceCase = o'.headingSentenceCase
  nouns : (∃ l, V (.heading l)) → o.headingSentenceCase = true →
    o.headingProperNouns = o'.headingProperNouns ∧ o.headingCommonNouns = o'.headingCommonNouns
  bullets : (∃ t, V (.list .bullet t)) → o.unorderedMarker = o'.unorderedMarker ∧
    o.leadingSpaces = o'.leadingSpaces ∧ o.indentWidth = o'.indentWidth
  trailing : ((∃ t, V (.list .bullet t)) ∨ (∃ t, V (.list .ordered t)) ∧ V .descriptionDetails) →
    o.trailingSpaces = o'.trailingSpaces
  ordered : (∃ t, V (.list .ordered t)) → o.oddLevelMarker = o'.oddLevelMarker ∧
    o.evenLevelMarker = o'.evenLevelMarker ∧ o.orderedListIndentWidth = o'.orderedListIndentWidth
  code : (∃ i l, V (.codeBlock i l)) → o.fenceChar = o'.fenceChar ∧ o.minFenceLength = o'.minFenceLength ∧
    o.spaceAfterFence = o'.spaceAfterFence ∧ o.codeFormatters = o'.codeFormatters
  language : (∃ i l, V (.codeBlock i l) ∧ trim i = []) → o.defaultLanguage = o'.defaultLanguage
  breaks : V .thematicBreak → o.thematicBreakStyle = o'.thematicBreakStyle ∧
    o.thematicBreakLeadingSpaces = o'.thematicBreakLeadingSpaces
  punct : ∀ t, V (.text t) → SamePunct o.punct o'.punct t

end Hongdown.Spec
