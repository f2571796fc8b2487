import Verif.Model.Punctuation

/-!
# Model of `Options` (src/lib.rs:31-182)
-/

namespace Hongdown.Model

/-- `CodeFormatter` (src/lib.rs:32-38). -/
structure CodeFormatter where
  command : List (List Char)
  timeoutSecs : Nat
  deriving DecidableEq

/-- `Options` (src/lib.rs:42-148) with the defaults of src/lib.rs:150-182. The validated
number types (`LineWidth`, `LeadingSpaces`, ...) are plain numbers here; what their
constructors accept is modelled in `Verif.Model.Config`. The seven punctuation
options are one field. `ordered_list_pad` is left out: no code reads it.
`code_formatters` is an association list; the hash map has each key once. The default
thematic break style is 37 dashes with spaces between (src/config.rs:750-756). -/
structure Options where
  lineWidth : Nat := 80
  setextH1 : Bool := true
  setextH2 : Bool := true
  headingSentenceCase : Bool := false
  headingProperNouns : List (List Char) := []
  headingCommonNouns : List (List Char) := []
  unorderedMarker : Char := '-'
  leadingSpaces : Nat := 1
  trailingSpaces : Nat := 2
  indentWidth : Nat := 4
  oddLevelMarker : Char := '.'
  evenLevelMarker : Char := ')'
  orderedListIndentWidth : Nat := 4
  fenceChar : Char := '~'
  minFenceLength : Nat := 4
  spaceAfterFence : Bool := true
  defaultLanguage : List Char := []
  thematicBreakStyle : List Char := (List.replicate 36 ['-', ' ']).flatten ++ ['-']
  thematicBreakLeadingSpaces : Nat := 3
  punct : PunctOpts
  codeFormatters : List (List Char × CodeFormatter) := []

/-- The default punctuation options (src/lib.rs:173-178). -/
def defaultPunct : PunctOpts :=
  { curlyDouble := true, curlySingle := true, curlyApostrophes := false, ellipsis := true,
    enDash := none, emDash := some ['-', '-'] }

/-- `Options::default()` (src/lib.rs:150-182). -/
def defaultOptions : Options := { punct := defaultPunct }

end Hongdown.Model
