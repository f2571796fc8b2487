import Verif.Spec.Config

/-!
# What the keys of a configuration file mean (README.md:178-260)
-/

namespace Hongdown.Spec
open Model

/-- A table of a configuration file. -/
abbrev TomlTable := List (List Char × Toml)

/-- A key that is missing stands for a default; otherwise its value must mean something. -/
def Setting {α : Type} (t : TomlTable) (key : String) (means : Toml → α → Prop) (default used : α) : Prop :=
  (t.lookup key.toList = none ∧ used = default) ∨ ∃ v, t.lookup key.toList = some v ∧ means v used

/-- `true` or `false`. -/
def IsBool (v : Toml) (b : Bool) : Prop := v = .bool b

/-- A number in a range. -/
def IsNumber (ok : Nat → Prop) (v : Toml) (n : Nat) : Prop := v = .int n ∧ ok n

/-- A string. -/
def IsText (v : Toml) (s : List Char) : Prop := v = .str s

/-- A list of strings. -/
def IsTexts (v : Toml) (ss : List (List Char)) : Prop := v = .arr (ss.map .str)

/-- One of some characters. -/
def IsOneOf (cs : List Char) (v : Toml) (c : Char) : Prop := v = .str [c] ∧ c ∈ cs

/-- Where to pad the numbers of lists. -/
def IsPad (v : Toml) (start : Bool) : Prop :=
  v = .str "start".toList ∧ start = true ∨ v = .str "end".toList ∧ start = false

/-- A dash: off, or a pattern. -/
def IsDash (v : Toml) (d : Option (List Char)) : Prop :=
  v = .bool false ∧ d = none ∨ ∃ s, v = .str s ∧ DashOk (some s) ∧ d = some s

/-- The style of thematic breaks. -/
def IsStyle (v : Toml) (s : List Char) : Prop := v = .str s ∧ StyleOk s

/-- A formatter: a command with 5 seconds, or a table with both. -/
def IsFormatter (v : Toml) (f : CodeFormatter) : Prop :=
  (IsTexts v f.command ∧ f.timeoutSecs = 5) ∨
    ∃ t, v = .table t ∧ (∃ w, t.lookup "command".toList = some w ∧ IsTexts w f.command) ∧
      Setting t "timeout" (IsNumber fun _ => True) 5 f.timeoutSecs

/-- Two lists of the same length whose elements are related in turn. -/
inductive EachIs {α β : Type} (R : α → β → Prop) : List α → List β → Prop
  | nil : EachIs R [] []
  | cons {a : α} {b : β} {as : List α} {bs : List β} : R a b → EachIs R as bs → EachIs R (a :: as) (b :: bs)

/-- The formatters: one for each language. -/
def IsFormatters (v : Toml) (fs : List (List Char × CodeFormatter)) : Prop :=
  ∃ t, v = .table t ∧ EachIs (fun kv f => kv.1 = f.1 ∧ IsFormatter kv.2 f.2) t fs

/-- `[heading]`. -/
def IsHeading (v : Toml) (c : HeadingConfig) : Prop :=
  ∃ t, v = .table t ∧ Setting t "setext_h1" IsBool true c.setextH1 ∧ Setting t "setext_h2" IsBool true c.setextH2 ∧
    Setting t "sentence_case" IsBool false c.sentenceCase ∧ Setting t "proper_nouns" IsTexts [] c.properNouns ∧
    Setting t "common_nouns" IsTexts [] c.commonNouns

/-- `[unordered_list]`. -/
def IsUnorderedList (v : Toml) (c : UnorderedListConfig) : Prop :=
  ∃ t, v = .table t ∧ Setting t "unordered_marker" (IsOneOf ['-', '*', '+']) '-' c.marker ∧
    Setting t "leading_spaces" (IsNumber (· ≤ 3)) 1 c.leadingSpaces ∧
    Setting t "trailing_spaces" (IsNumber (· ≤ 3)) 2 c.trailingSpaces ∧
    Setting t "indent_width" (IsNumber (1 ≤ ·)) 4 c.indentWidth

/-- `[ordered_list]`. -/
def IsOrderedList (v : Toml) (c : OrderedListConfig) : Prop :=
  ∃ t, v = .table t ∧ Setting t "odd_level_marker" (IsOneOf ['.', ')']) '.' c.oddLevelMarker ∧
    Setting t "even_level_marker" (IsOneOf ['.', ')']) ')' c.evenLevelMarker ∧
    Setting t "pad" IsPad true c.padStart ∧ Setting t "indent_width" (IsNumber (1 ≤ ·)) 4 c.indentWidth

/-- `[code_block]`. -/
def IsCodeBlock (v : Toml) (c : CodeBlockConfig) : Prop :=
  ∃ t, v = .table t ∧ Setting t "fence_char" (IsOneOf ['~', '`']) '~' c.fenceChar ∧
    Setting t "min_fence_length" (IsNumber (3 ≤ ·)) 4 c.minFenceLength ∧
    Setting t "space_after_fence" IsBool true c.spaceAfterFence ∧
    Setting t "default_language" IsText [] c.defaultLanguage ∧ Setting t "formatters" IsFormatters [] c.formatters

/-- `[thematic_break]`. -/
def IsThematicBreakSection (v : Toml) (c : ThematicBreakConfig) : Prop :=
  ∃ t, v = .table t ∧ Setting t "style" IsStyle ((List.replicate 36 ['-', ' ']).flatten ++ ['-']) c.style ∧
    Setting t "leading_spaces" (IsNumber (· ≤ 3)) 3 c.leadingSpaces

/-- `[punctuation]`. -/
def IsPunctuation (v : Toml) (c : PunctuationConfig) : Prop :=
  ∃ t, v = .table t ∧ Setting t "curly_double_quotes" IsBool true c.curlyDoubleQuotes ∧
    Setting t "curly_single_quotes" IsBool true c.curlySingleQuotes ∧
    Setting t "curly_apostrophes" IsBool false c.curlyApostrophes ∧ Setting t "ellipsis" IsBool true c.ellipsis ∧
    Setting t "en_dash" IsDash none c.enDash ∧ Setting t "em_dash" IsDash (some "--".toList) c.emDash

/-- A whole file. -/
structure IsConfig (t : TomlTable) (c : Config) : Prop where
  noInherit : Setting t "no_inherit" IsBool false c.noInherit
  lineWidth : Setting t "line_width" (IsNumber (8 ≤ ·)) 80 c.lineWidth
  includes : Setting t "include" IsTexts [] c.includes
  excludes : Setting t "exclude" IsTexts [] c.excludes
  gitAware : Setting t "git_aware" IsBool true c.gitAware
  heading : Setting t "heading" IsHeading {} c.heading
  unorderedList : Setting t "unordered_list" IsUnorderedList {} c.unorderedList
  orderedList : Setting t "ordered_list" IsOrderedList {} c.orderedList
  codeBlock : Setting t "code_block" IsCodeBlock {} c.codeBlock
  thematicBreak : Setting t "thematic_break" IsThematicBreakSection {} c.thematicBreak
  punctuation : Setting t "punctuation" IsPunctuation {} c.punctuation

/-- The same for a layer: nothing is set by default. -/
structure IsLayer (t : TomlTable) (c : ConfigLayer) : Prop where
  noInherit : Setting t "no_inherit" IsBool false c.noInherit
  lineWidth : Setting t "line_width" (fun v x => ∃ n, x = some n ∧ IsNumber (8 ≤ ·) v n) none c.lineWidth
  includes : Setting t "include" (fun v x => ∃ n, x = some n ∧ IsTexts v n) none c.includes
  excludes : Setting t "exclude" (fun v x => ∃ n, x = some n ∧ IsTexts v n) none c.excludes
  gitAware : Setting t "git_aware" (fun v x => ∃ n, x = some n ∧ IsBool v n) none c.gitAware
  heading : Setting t "heading" (fun v x => ∃ n, x = some n ∧ IsHeading v n) none c.heading
  unorderedList : Setting t "unordered_list" (fun v x => ∃ n, x = some n ∧ IsUnorderedList v n) none c.unorderedList
  orderedList : Setting t "ordered_list" (fun v x => ∃ n, x = some n ∧ IsOrderedList v n) none c.orderedList
  codeBlock : Setting t "code_block" (fun v x => ∃ n, x = some n ∧ IsCodeBlock v n) none c.codeBlock
  thematicBreak : Setting t "thematic_break" (fun v x => ∃ n, x = some n ∧ IsThematicBreakSection v n) none
    c.thematicBreak
  punctuation : Setting t "punctuation" (fun v x => ∃ n, x = some n ∧ IsPunctuation v n) none c.punctuation

/-- The options of the library for a configuration. -/
structure IsOptions (c : Config) (o : Options) : Prop where
  lineWidth : o.lineWidth = c.lineWidth
  setextH1 : o.setextH1 = c.heading.setextH1
  setextH2 : o.setextH2 = c.heading.setextH2
  sentenceCase : o.headingSentenceCase = c.heading.sentenceCase
  properNouns : o.headingProperNouns = c.heading.properNouns
  commonNouns : o.headingCommonNouns = c.heading.commonNouns
  marker : o.unorderedMarker = c.unorderedList.marker
  leadingSpaces : o.leadingSpaces = c.unorderedList.leadingSpaces
  trailingSpaces : o.trailingSpaces = c.unorderedList.trailingSpaces
  indentWidth : o.indentWidth = c.unorderedList.indentWidth
  oddMarker : o.oddLevelMarker = c.orderedList.oddLevelMarker
  evenMarker : o.evenLevelMarker = c.orderedList.evenLevelMarker
  orderedIndent : o.orderedListIndentWidth = c.orderedList.indentWidth
  fenceChar : o.fenceChar = c.codeBlock.fenceChar
  fenceLength : o.minFenceLength = c.codeBlock.minFenceLength
  fenceSpace : o.spaceAfterFence = c.codeBlock.spaceAfterFence
  language : o.defaultLanguage = c.codeBlock.defaultLanguage
  formatters : o.codeFormatters = c.codeBlock.formatters
  style : o.thematicBreakStyle = c.thematicBreak.style
  breakSpaces : o.thematicBreakLeadingSpaces = c.thematicBreak.leadingSpaces
  doubleQuotes : o.punct.curlyDouble = c.punctuation.curlyDoubleQuotes
  singleQuotes : o.punct.curlySingle = c.punctuation.curlySingleQuotes
  apostrophes : o.punct.curlyApostrophes = c.punctuation.curlyApostrophes
  ellipsis : o.punct.ellipsis = c.punctuation.ellipsis
  enDash : o.punct.enDash = c.punctuation.enDash
  emDash : o.punct.emDash = c.punctuation.emDash

end Hongdown.Spec
