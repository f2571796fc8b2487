import Verif.Spec.Settings
import Verif.Model.Wasm

/-!
# The documented defaults (README.md:200-256)
-/

namespace Hongdown.Spec
open Model

/-- The example configuration of README.md:205-255, "with all available options and their default
values", as the tables a TOML parser makes of it. -/
def readmeConfig : TomlTable :=
  [("include".toList, .arr []),
   ("exclude".toList, .arr []),
   ("git_aware".toList, .bool true),
   ("line_width".toList, .int 80),
   ("heading".toList, .table
     [("setext_h1".toList, .bool true),
      ("setext_h2".toList, .bool true),
      ("sentence_case".toList, .bool false),
      ("proper_nouns".toList, .arr []),
      ("common_nouns".toList, .arr [])]),
   ("unordered_list".toList, .table
     [("unordered_marker".toList, .str "-".toList),
      ("leading_spaces".toList, .int 1),
      ("trailing_spaces".toList, .int 2),
      ("indent_width".toList, .int 4)]),
   ("ordered_list".toList, .table
     [("odd_level_marker".toList, .str ".".toList),
      ("even_level_marker".toList, .str ")".toList),
      ("pad".toList, .str "start".toList),
      ("indent_width".toList, .int 4)]),
   ("code_block".toList, .table
     [("fence_char".toList, .str "~".toList),
      ("min_fence_length".toList, .int 4),
      ("space_after_fence".toList, .bool true),
      ("default_language".toList, .str []),
      ("formatters".toList, .table [])]),
   ("thematic_break".toList, .table
     [("style".toList,
        .str "- - - - - - - - - - - - - - - - - - - - - - - - - - - - - - - - - - - - -".toList),
      ("leading_spaces".toList, .int 3)]),
   ("punctuation".toList, .table
     [("curly_double_quotes".toList, .bool true),
      ("curly_single_quotes".toList, .bool true),
      ("curly_apostrophes".toList, .bool false),
      ("ellipsis".toList, .bool true),
      ("en_dash".toList, .bool false),
      ("em_dash".toList, .str "--".toList)])]

/-- The same values as options of the library (also packages/wasm/src/types.ts:18-195). -/
def documented : Options where
  lineWidth := 80
  setextH1 := true
  setextH2 := true
  headingSentenceCase := false
  headingProperNouns := []
  headingCommonNouns := []
  unorderedMarker := '-'
  leadingSpaces := 1
  trailingSpaces := 2
  indentWidth := 4
  oddLevelMarker := '.'
  evenLevelMarker := ')'
  orderedListIndentWidth := 4
  fenceChar := '~'
  minFenceLength := 4
  spaceAfterFence := true
  defaultLanguage := []
  thematicBreakStyle := "- - - - - - - - - - - - - - - - - - - - - - - - - - - - - - - - - - - - -".toList
  thematicBreakLeadingSpaces := 3
  punct :=
    { curlyDouble := true
      curlySingle := true
      curlyApostrophes := false
      ellipsis := true
      enDash := none
      emDash := some "--".toList }
  codeFormatters := []

/-- The keys two tables share have the same values. -/
def AgreesWith (doc t : TomlTable) : Prop :=
  ∀ k v d, t.lookup k = some v → doc.lookup k = some d → v = d

/-- A file that sets some documented keys, in some documented sections, to their documented values.
Keys that the documentation does not list are not restricted. -/
def SaysDefaults (t : TomlTable) : Prop :=
  ∀ k v d, t.lookup k = some v → readmeConfig.lookup k = some d →
    v = d ∨ ∃ dt vt, d = .table dt ∧ v = .table vt ∧ AgreesWith dt vt

/-- Options from JavaScript, each missing or the documented default. -/
structure SaysJsDefaults (j : JsOptions) : Prop where
  lineWidth : j.lineWidth ∈ [none, some 80]
  setextH1 : j.setextH1 ∈ [none, some true]
  setextH2 : j.setextH2 ∈ [none, some true]
  sentenceCase : j.headingSentenceCase ∈ [none, some false]
  properNouns : j.headingProperNouns ∈ [none, some []]
  commonNouns : j.headingCommonNouns ∈ [none, some []]
  unorderedMarker : j.unorderedMarker ∈ [none, some "-".toList]
  leadingSpaces : j.leadingSpaces ∈ [none, some 1]
  trailingSpaces : j.trailingSpaces ∈ [none, some 2]
  indentWidth : j.indentWidth ∈ [none, some 4]
  oddLevelMarker : j.oddLevelMarker ∈ [none, some ".".toList]
  evenLevelMarker : j.evenLevelMarker ∈ [none, some ")".toList]
  orderedListIndentWidth : j.orderedListIndentWidth ∈ [none, some 4]
  fenceChar : j.fenceChar ∈ [none, some "~".toList]
  minFenceLength : j.minFenceLength ∈ [none, some 4]
  spaceAfterFence : j.spaceAfterFence ∈ [none, some true]
  defaultLanguage : j.defaultLanguage ∈ [none, some []]
  style : j.thematicBreakStyle ∈
    [none, some "- - - - - - - - - - - - - - - - - - - - - - - - - - - - - - - - - - - - -".toList]
  breakSpaces : j.thematicBreakLeadingSpaces ∈ [none, some 3]
  doubleQuotes : j.curlyDoubleQuotes ∈ [none, some true]
  singleQuotes : j.curlySingleQuotes ∈ [none, some true]
  apostrophes : j.curlyApostrophes ∈ [none, some false]
  ellipsis : j.ellipsis ∈ [none, some true]
  enDash : j.enDash ∈ [none, some (.disabled false)]
  emDash : j.emDash ∈ [none, some (.pattern "--".toList)]

end Hongdown.Spec
