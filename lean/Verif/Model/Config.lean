import Verif.Model.Options

/-!
# Model of `src/config.rs`

Error values carry no text: `none` is any `Err`. Files, environment and the TOML grammar are
parameters.
-/

namespace Hongdown.Model

/-! ### Checked values -/

/-- `LeadingSpaces::new` (src/config.rs:250-260). -/
def leadingSpacesNew (value : Nat) : Option Nat := if value > 3 then none else some value

/-- `TrailingSpaces::new` (src/config.rs:295-305). -/
def trailingSpacesNew (value : Nat) : Option Nat := if value > 3 then none else some value

/-- `IndentWidth::new` (src/config.rs:340-350). -/
def indentWidthNew (value : Nat) : Option Nat := if value < 1 then none else some value

/-- `LineWidth::new` (src/config.rs:388-398). -/
def lineWidthNew (value : Nat) : Option Nat := if value < 8 then none else some value

/-- `MinFenceLength::new` (src/config.rs:591-601). -/
def minFenceLengthNew (value : Nat) : Option Nat := if value < 3 then none else some value

/-- The counters of `ThematicBreakStyle::new` (src/config.rs:689-706); `other` ends the loop. -/
structure MarkerCounts where
  asterisk : Nat := 0
  hyphen : Nat := 0
  underscore : Nat := 0
  other : Bool := false
  deriving DecidableEq

/-- The loop over the characters (src/config.rs:694-706). -/
def countMarkers : MarkerCounts → List Char → MarkerCounts
  | c, [] => c
  | c, ch :: s =>
    if ch = '*' then countMarkers { c with asterisk := c.asterisk + 1 } s
    else if ch = '-' then countMarkers { c with hyphen := c.hyphen + 1 } s
    else if ch = '_' then countMarkers { c with underscore := c.underscore + 1 } s
    else if ch = ' ' ∨ ch = '\t' then countMarkers c s
    else { c with other := true }

/-- `ThematicBreakStyle::new` (src/config.rs:677-742). -/
def thematicBreakStyleNew (style : List Char) : Option (List Char) :=
  if trim style = [] then none
  else
    let c := countMarkers {} (trim style)
    if c.other then none
    else if ([c.asterisk, c.hyphen, c.underscore].filter (3 ≤ ·)).length = 1 then some style
    else none

/-- `char::is_ascii_graphic`. -/
def isAsciiGraphic (c : Char) : Bool := 33 ≤ c.toNat && c.toNat ≤ 126

/-- `DashPattern::new` (src/config.rs:798-812). -/
def dashPatternNew (pattern : List Char) : Option (List Char) :=
  if pattern = [] then none
  else if pattern.any (fun c => !isAsciiGraphic c) then none
  else some pattern

/-! ### Sections -/

/-- `HeadingConfig` (src/config.rs:177-210). -/
structure HeadingConfig where
  setextH1 : Bool := true
  setextH2 : Bool := true
  sentenceCase : Bool := false
  properNouns : List (List Char) := []
  commonNouns : List (List Char) := []
  deriving DecidableEq

/-- `UnorderedListConfig` (src/config.rs:428-442). The marker enum is its character. -/
structure UnorderedListConfig where
  marker : Char := '-'
  leadingSpaces : Nat := 1
  trailingSpaces : Nat := 2
  indentWidth : Nat := 4
  deriving DecidableEq

/-- `OrderedListConfig` (src/config.rs:480-507). `padStart` is `pad = "start"`. -/
structure OrderedListConfig where
  oddLevelMarker : Char := '.'
  evenLevelMarker : Char := ')'
  padStart : Bool := true
  indentWidth : Nat := 4
  deriving DecidableEq

/-- `CodeBlockConfig` (src/config.rs:629-664); a formatter is its command and timeout
(`FormatterConfig::command` and `timeout`, src/config.rs:530-545). -/
structure CodeBlockConfig where
  fenceChar : Char := '~'
  minFenceLength : Nat := 4
  spaceAfterFence : Bool := true
  defaultLanguage : List Char := []
  formatters : List (List Char × CodeFormatter) := []
  deriving DecidableEq

/-- `ThematicBreakConfig` (src/config.rs:769-787). -/
structure ThematicBreakConfig where
  style : List Char := (List.replicate 36 ['-', ' ']).flatten ++ ['-']
  leadingSpaces : Nat := 3
  deriving DecidableEq

/-- `PunctuationConfig` (src/config.rs:894-936). -/
structure PunctuationConfig where
  curlyDoubleQuotes : Bool := true
  curlySingleQuotes : Bool := true
  curlyApostrophes : Bool := false
  ellipsis : Bool := true
  enDash : Option (List Char) := none
  emDash : Option (List Char) := some ['-', '-']
  deriving DecidableEq

/-- `Config` (src/config.rs:22-79). -/
structure Config where
  noInherit : Bool := false
  lineWidth : Nat := 80
  includes : List (List Char) := []
  excludes : List (List Char) := []
  gitAware : Bool := true
  heading : HeadingConfig := {}
  unorderedList : UnorderedListConfig := {}
  orderedList : OrderedListConfig := {}
  codeBlock : CodeBlockConfig := {}
  thematicBreak : ThematicBreakConfig := {}
  punctuation : PunctuationConfig := {}
  deriving DecidableEq

/-- `ConfigLayer` (src/config.rs:86-122). -/
structure ConfigLayer where
  noInherit : Bool := false
  lineWidth : Option Nat := none
  includes : Option (List (List Char)) := none
  excludes : Option (List (List Char)) := none
  gitAware : Option Bool := none
  heading : Option HeadingConfig := none
  unorderedList : Option UnorderedListConfig := none
  orderedList : Option OrderedListConfig := none
  codeBlock : Option CodeBlockConfig := none
  thematicBreak : Option ThematicBreakConfig := none
  punctuation : Option PunctuationConfig := none
  deriving DecidableEq

/-- `ConfigLayer::merge_over` (src/config.rs:139-174). -/
def mergeOver (l : ConfigLayer) (base : Config) : Config where
  noInherit := l.noInherit
  lineWidth := l.lineWidth.getD base.lineWidth
  includes := l.includes.getD base.includes
  excludes := l.excludes.getD base.excludes
  gitAware := l.gitAware.getD base.gitAware
  heading := l.heading.getD base.heading
  unorderedList := l.unorderedList.getD base.unorderedList
  orderedList := l.orderedList.getD base.orderedList
  codeBlock := l.codeBlock.getD base.codeBlock
  thematicBreak := l.thematicBreak.getD base.thematicBreak
  punctuation := l.punctuation.getD base.punctuation

/-! ### Deserialization

The derived `Deserialize` implementations. Missing keys give the default, unknown keys are
ignored, a wrong value makes the whole file fail. The parser for TOML text itself is a
parameter. Simplification: sections must be tables and enums strings, as in the
documentation; serde also takes arrays for sections and tables for enums. -/

/-- A TOML value; `other` are floats and dates. -/
inductive Toml where
  | bool (b : Bool)
  | int (i : Int)
  | str (s : List Char)
  | arr (vs : List Toml)
  | table (t : List (List Char × Toml))
  | other

/-- `bool::deserialize`. -/
def Toml.bool? : Toml → Option Bool
  | .bool b => some b
  | _ => none

/-- `String::deserialize`. -/
def Toml.str? : Toml → Option (List Char)
  | .str s => some s
  | _ => none

/-- `usize::deserialize`: TOML integers have 64 bits and a sign. -/
def Toml.nat? : Toml → Option Nat
  | .int (.ofNat n) => some n
  | _ => none

/-- `Vec<String>::deserialize`. -/
def Toml.strs? : Toml → Option (List (List Char))
  | .arr vs => vs.mapM Toml.str?
  | _ => none

/-- A table. -/
def Toml.table? : Toml → Option (List (List Char × Toml))
  | .table t => some t
  | _ => none

/-- A field with a default. -/
def fieldD {α : Type} (t : List (List Char × Toml)) (key : String) (read : Toml → Option α)
    (default : α) : Option α :=
  match t.lookup key.toList with
  | none => some default
  | some v => read v

/-- A field of type `Option<T>`. -/
def fieldO {α : Type} (t : List (List Char × Toml)) (key : String) (read : Toml → Option α) :
    Option (Option α) :=
  match t.lookup key.toList with
  | none => some none
  | some v => (read v).map some

/-- `UnorderedMarker` (src/config.rs:213-226). -/
def readUnorderedMarker (v : Toml) : Option Char :=
  match v.str? with
  | some ['-'] => some '-'
  | some ['*'] => some '*'
  | some ['+'] => some '+'
  | _ => none

/-- `OrderedMarker` (src/config.rs:445-455). -/
def readOrderedMarker (v : Toml) : Option Char :=
  match v.str? with
  | some ['.'] => some '.'
  | some [')'] => some ')'
  | _ => none

/-- `OrderedListPad` (src/config.rs:467-477). -/
def readPad (v : Toml) : Option Bool :=
  v.str?.bind fun s =>
    if s = "start".toList then some true else if s = "end".toList then some false else none

/-- `FenceChar` (src/config.rs:559-570). -/
def readFenceChar (v : Toml) : Option Char :=
  match v.str? with
  | some ['~'] => some '~'
  | some ['`'] => some '`'
  | _ => none

/-- `DashSetting` (src/config.rs:842-891): false, or a pattern. -/
def readDash : Toml → Option (Option (List Char))
  | .bool false => some none
  | .str s => (dashPatternNew s).map some
  | _ => none

/-- `FormatterConfig` (src/config.rs:509-545): an array, or a table with a command and a
timeout of 5 seconds if none is given. -/
def readFormatter : Toml → Option CodeFormatter
  | .table t => do
    let command ← (t.lookup "command".toList).bind Toml.strs?
    let timeout ← fieldD t "timeout" Toml.nat? 5
    some ⟨command, timeout⟩
  | v => v.strs?.map fun command => ⟨command, 5⟩

/-- `HeadingConfig` (src/config.rs:177-210). -/
def readHeading (v : Toml) : Option HeadingConfig := do
  let t ← v.table?
  let h1 ← fieldD t "setext_h1" Toml.bool? true
  let h2 ← fieldD t "setext_h2" Toml.bool? true
  let sc ← fieldD t "sentence_case" Toml.bool? false
  let pn ← fieldD t "proper_nouns" Toml.strs? []
  let cn ← fieldD t "common_nouns" Toml.strs? []
  some ⟨h1, h2, sc, pn, cn⟩

/-- `UnorderedListConfig` (src/config.rs:428-442). -/
def readUnorderedList (v : Toml) : Option UnorderedListConfig := do
  let t ← v.table?
  let m ← fieldD t "unordered_marker" readUnorderedMarker '-'
  let ls ← fieldD t "leading_spaces" (fun v => v.nat?.bind leadingSpacesNew) 1
  let ts ← fieldD t "trailing_spaces" (fun v => v.nat?.bind trailingSpacesNew) 2
  let iw ← fieldD t "indent_width" (fun v => v.nat?.bind indentWidthNew) 4
  some ⟨m, ls, ts, iw⟩

/-- `OrderedListConfig` (src/config.rs:480-507). -/
def readOrderedList (v : Toml) : Option OrderedListConfig := do
  let t ← v.table?
  let o ← fieldD t "odd_level_marker" readOrderedMarker '.'
  let e ← fieldD t "even_level_marker" readOrderedMarker ')'
  let p ← fieldD t "pad" readPad true
  let iw ← fieldD t "indent_width" (fun v => v.nat?.bind indentWidthNew) 4
  some ⟨o, e, p, iw⟩

/-- The table of formatters (src/config.rs:648-652). -/
def readFormatters (v : Toml) : Option (List (List Char × CodeFormatter)) := do
  let t ← v.table?
  t.mapM fun kv => (readFormatter kv.2).map fun f => (kv.1, f)

/-- `CodeBlockConfig` (src/config.rs:629-664). -/
def readCodeBlock (v : Toml) : Option CodeBlockConfig := do
  let t ← v.table?
  let fc ← fieldD t "fence_char" readFenceChar '~'
  let ml ← fieldD t "min_fence_length" (fun v => v.nat?.bind minFenceLengthNew) 4
  let sp ← fieldD t "space_after_fence" Toml.bool? true
  let dl ← fieldD t "default_language" Toml.str? []
  let fs ← fieldD t "formatters" readFormatters []
  some ⟨fc, ml, sp, dl, fs⟩

/-- `ThematicBreakConfig` (src/config.rs:769-787). -/
def readThematicBreak (v : Toml) : Option ThematicBreakConfig := do
  let t ← v.table?
  let s ← fieldD t "style" (fun v => v.str?.bind thematicBreakStyleNew)
    (({} : ThematicBreakConfig).style)
  let ls ← fieldD t "leading_spaces" (fun v => v.nat?.bind leadingSpacesNew) 3
  some ⟨s, ls⟩

/-- `PunctuationConfig` (src/config.rs:894-936). -/
def readPunctuation (v : Toml) : Option PunctuationConfig := do
  let t ← v.table?
  let dq ← fieldD t "curly_double_quotes" Toml.bool? true
  let sq ← fieldD t "curly_single_quotes" Toml.bool? true
  let ap ← fieldD t "curly_apostrophes" Toml.bool? false
  let el ← fieldD t "ellipsis" Toml.bool? true
  let en ← fieldD t "en_dash" readDash none
  let em ← fieldD t "em_dash" readDash (some ['-', '-'])
  some ⟨dq, sq, ap, el, en, em⟩

/-- `ConfigLayer` (src/config.rs:86-122). -/
def readLayer (t : List (List Char × Toml)) : Option ConfigLayer := do
  let ni ← fieldD t "no_inherit" Toml.bool? false
  let lw ← fieldO t "line_width" (fun v => v.nat?.bind lineWidthNew)
  let inc ← fieldO t "include" Toml.strs?
  let exc ← fieldO t "exclude" Toml.strs?
  let ga ← fieldO t "git_aware" Toml.bool?
  let h ← fieldO t "heading" readHeading
  let ul ← fieldO t "unordered_list" readUnorderedList
  let ol ← fieldO t "ordered_list" readOrderedList
  let cb ← fieldO t "code_block" readCodeBlock
  let tb ← fieldO t "thematic_break" readThematicBreak
  let p ← fieldO t "punctuation" readPunctuation
  some ⟨ni, lw, inc, exc, ga, h, ul, ol, cb, tb, p⟩

/-- `Config::from_toml` (src/config.rs:22-79, 939-941). -/
def readConfig (t : List (List Char × Toml)) : Option Config := do
  let ni ← fieldD t "no_inherit" Toml.bool? false
  let lw ← fieldD t "line_width" (fun v => v.nat?.bind lineWidthNew) 80
  let inc ← fieldD t "include" Toml.strs? []
  let exc ← fieldD t "exclude" Toml.strs? []
  let ga ← fieldD t "git_aware" Toml.bool? true
  let h ← fieldD t "heading" readHeading {}
  let ul ← fieldD t "unordered_list" readUnorderedList {}
  let ol ← fieldD t "ordered_list" readOrderedList {}
  let cb ← fieldD t "code_block" readCodeBlock {}
  let tb ← fieldD t "thematic_break" readThematicBreak {}
  let p ← fieldD t "punctuation" readPunctuation {}
  some ⟨ni, lw, inc, exc, ga, h, ul, ol, cb, tb, p⟩

/-! ### Configuration files -/

/-- A path as its components; absolute paths only, `[]` is the root. -/
abbrev Path := List (List Char)

/-- What the outside world provides. `config p` is the parsed table of a file: the outer
`Option` says whether the path exists (`Path::exists`), the inner one whether it can be
read and parsed as TOML. -/
structure Places where
  config : Path → Option (Option (List (List Char × Toml)))
  /-- `dirs::home_dir()`. -/
  home : Option Path
  /-- `dirs::config_dir()`. -/
  configDir : Option Path

/-- `ConfigLayer::from_file` (src/config.rs:128-132) for a path that exists. -/
def layerFromFile (t : Option (List (List Char × Toml))) : Option ConfigLayer := t.bind readLayer

/-- `try_load_layer` (src/config.rs:1063-1068). -/
def tryLoadLayer (w : Places) (p : Path) : Option (Option ConfigLayer) :=
  match w.config p with
  | none => some none
  | some t => (layerFromFile t).map some

/-- `load_system_config` (src/config.rs:1022-1024). -/
def systemPath : Path := ["etc".toList, "hongdown".toList, "config.toml".toList]

/-- `CONFIG_FILE_NAME` (src/config.rs:14). -/
def configFileName : List Char := ".hongdown.toml".toList

/-- `load_user_legacy_config` (src/config.rs:1027-1033). -/
def loadLegacy (w : Places) : Option (Option ConfigLayer) :=
  match w.home with
  | some home => tryLoadLayer w (home ++ [configFileName])
  | none => some none

/-- `load_user_xdg_config` (src/config.rs:1036-1042). -/
def loadXdg (w : Places) : Option (Option ConfigLayer) :=
  match w.configDir with
  | some dir => tryLoadLayer w (dir ++ ["hongdown".toList, "config.toml".toList])
  | none => some none

/-- The loop of `discover_project_config` (src/config.rs:1045-1060) with the components of
`current` in reverse order. -/
def discoverGo (w : Places) : List (List Char) → Option (Option (Path × ConfigLayer))
  | [] =>
    match w.config [configFileName] with
    | some t => (layerFromFile t).map fun l => some ([configFileName], l)
    | none => some none
  | c :: cs =>
    let path := (c :: cs).reverse ++ [configFileName]
    match w.config path with
    | some t => (layerFromFile t).map fun l => some (path, l)
    | none => discoverGo w cs

/-- `discover_project_config` (src/config.rs:1045-1060). -/
def discoverProject (w : Places) (start : Path) : Option (Option (Path × ConfigLayer)) :=
  discoverGo w start.reverse

/-- `Config::load_cascading` (src/config.rs:981-1019). -/
def loadCascading (w : Places) (start : Path) : Option (Config × Option Path) := do
  let system ← tryLoadLayer w systemPath
  let legacy ← loadLegacy w
  let xdg ← loadXdg w
  let project ← discoverProject w start
  let lower := system.toList ++ legacy.toList ++ xdg.toList
  let layers := match project with
    | some (_, layer) => (if layer.noInherit then [] else lower) ++ [layer]
    | none => lower
  some (layers.foldl (fun config layer => mergeOver layer config) {}, project.map (·.1))

/-- `load_config` (src/main.rs:394-427): the configuration, the base directory and whether
a warning was printed. `explicit` is `--config`; its parent directory is `base`. -/
def loadConfig (w : Places) (cwd : Path) (explicit : Option Path) : Config × Path × Bool :=
  match explicit with
  | some path =>
    match ((w.config path).bind id).bind readConfig with
    | some config => (config, path.dropLast, false)
    | none => ({}, cwd, true)
  | none =>
    match loadCascading w cwd with
    | some (config, project) => (config, (project.map (·.dropLast)).getD cwd, false)
    | none => ({}, cwd, true)

/-- The options built from the configuration (src/main.rs:57-101) with the line width of the
command line; `none` is the panic of line 60. -/
def toOptions (config : Config) (lineWidth : Option Nat) : Option Options := do
  let lw ← match lineWidth with
    | some w => lineWidthNew w
    | none => some config.lineWidth
  some
    { lineWidth := lw
      setextH1 := config.heading.setextH1
      setextH2 := config.heading.setextH2
      headingSentenceCase := config.heading.sentenceCase
      headingProperNouns := config.heading.properNouns
      headingCommonNouns := config.heading.commonNouns
      unorderedMarker := config.unorderedList.marker
      leadingSpaces := config.unorderedList.leadingSpaces
      trailingSpaces := config.unorderedList.trailingSpaces
      indentWidth := config.unorderedList.indentWidth
      oddLevelMarker := config.orderedList.oddLevelMarker
      evenLevelMarker := config.orderedList.evenLevelMarker
      orderedListIndentWidth := config.orderedList.indentWidth
      fenceChar := config.codeBlock.fenceChar
      minFenceLength := config.codeBlock.minFenceLength
      spaceAfterFence := config.codeBlock.spaceAfterFence
      defaultLanguage := config.codeBlock.defaultLanguage
      thematicBreakStyle := config.thematicBreak.style
      thematicBreakLeadingSpaces := config.thematicBreak.leadingSpaces
      punct :=
        { curlyDouble := config.punctuation.curlyDoubleQuotes
          curlySingle := config.punctuation.curlySingleQuotes
          curlyApostrophes := config.punctuation.curlyApostrophes
          ellipsis := config.punctuation.ellipsis
          enDash := config.punctuation.enDash
          emDash := config.punctuation.emDash }
      codeFormatters := config.codeBlock.formatters }

end Hongdown.Model
