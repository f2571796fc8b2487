import Verif.Model.Config
import Verif.Model.Document

/-!
# Model of `src/wasm.rs`

The JavaScript values are already decoded: `serde_wasm_bindgen` is not modelled, nor is the error
for an object of the wrong shape.
-/

namespace Hongdown.Model

/-- `JsDashSetting` (src/wasm.rs:104-111). -/
inductive JsDash where
  | disabled (b : Bool)
  | pattern (s : List Char)
  deriving DecidableEq

/-- `JsOptions` (src/wasm.rs:17-99). -/
structure JsOptions where
  lineWidth : Option Nat := none
  setextH1 : Option Bool := none
  setextH2 : Option Bool := none
  headingSentenceCase : Option Bool := none
  headingProperNouns : Option (List (List Char)) := none
  headingCommonNouns : Option (List (List Char)) := none
  unorderedMarker : Option (List Char) := none
  leadingSpaces : Option Nat := none
  trailingSpaces : Option Nat := none
  indentWidth : Option Nat := none
  oddLevelMarker : Option (List Char) := none
  evenLevelMarker : Option (List Char) := none
  orderedListPad : Option (List Char) := none
  orderedListIndentWidth : Option Nat := none
  fenceChar : Option (List Char) := none
  minFenceLength : Option Nat := none
  spaceAfterFence : Option Bool := none
  defaultLanguage : Option (List Char) := none
  thematicBreakStyle : Option (List Char) := none
  thematicBreakLeadingSpaces : Option Nat := none
  curlyDoubleQuotes : Option Bool := none
  curlySingleQuotes : Option Bool := none
  curlyApostrophes : Option Bool := none
  ellipsis : Option Bool := none
  enDash : Option JsDash := none
  emDash : Option JsDash := none
  deriving DecidableEq

/-- `to_dash_setting` (src/wasm.rs:114-122). -/
def JsDash.toDash : JsDash → Option (List Char)
  | .disabled _ => none
  | .pattern s => dashPatternNew s

/-- The statements `if let Some(v) = … { if let Ok(x) = T::new(v) { … } }` of `to_options`. -/
def jsChecked {α : Type} (new : α → Option α) (v : Option α) (default : α) : α := (v.bind new).getD default

/-- `to_options` (src/wasm.rs:127-242). -/
def JsOptions.toOptions (j : JsOptions) : Options :=
  let d := defaultOptions
  { lineWidth := jsChecked lineWidthNew j.lineWidth d.lineWidth
    setextH1 := j.setextH1.getD d.setextH1
    setextH2 := j.setextH2.getD d.setextH2
    headingSentenceCase := j.headingSentenceCase.getD d.headingSentenceCase
    headingProperNouns := j.headingProperNouns.getD d.headingProperNouns
    headingCommonNouns := j.headingCommonNouns.getD d.headingCommonNouns
    unorderedMarker :=
      match j.unorderedMarker with
      | none => d.unorderedMarker
      | some ['*'] => '*'
      | some ['+'] => '+'
      | some _ => '-'
    leadingSpaces := jsChecked leadingSpacesNew j.leadingSpaces d.leadingSpaces
    trailingSpaces := jsChecked trailingSpacesNew j.trailingSpaces d.trailingSpaces
    indentWidth := jsChecked indentWidthNew j.indentWidth d.indentWidth
    oddLevelMarker :=
      match j.oddLevelMarker with
      | none => d.oddLevelMarker
      | some [')'] => ')'
      | some _ => '.'
    evenLevelMarker :=
      match j.evenLevelMarker with
      | none => d.evenLevelMarker
      | some ['.'] => '.'
      | some _ => ')'
    orderedListIndentWidth := jsChecked indentWidthNew j.orderedListIndentWidth d.orderedListIndentWidth
    fenceChar :=
      match j.fenceChar with
      | none => d.fenceChar
      | some ['`'] => '`'
      | some _ => '~'
    minFenceLength := jsChecked minFenceLengthNew j.minFenceLength d.minFenceLength
    spaceAfterFence := j.spaceAfterFence.getD d.spaceAfterFence
    defaultLanguage := j.defaultLanguage.getD d.defaultLanguage
    thematicBreakStyle := jsChecked thematicBreakStyleNew j.thematicBreakStyle d.thematicBreakStyle
    thematicBreakLeadingSpaces :=
      jsChecked leadingSpacesNew j.thematicBreakLeadingSpaces d.thematicBreakLeadingSpaces
    punct :=
      { curlyDouble := j.curlyDoubleQuotes.getD d.punct.curlyDouble
        curlySingle := j.curlySingleQuotes.getD d.punct.curlySingle
        curlyApostrophes := j.curlyApostrophes.getD d.punct.curlyApostrophes
        ellipsis := j.ellipsis.getD d.punct.ellipsis
        enDash := match j.enDash with
          | none => d.punct.enDash
          | some v => v.toDash
        emDash := match j.emDash with
          | none => d.punct.emDash
          | some v => v.toDash } }

/-- What a JavaScript code formatter does when it is called (src/wasm.rs:377-387): it returns
`null` or `undefined`, a string, some other value (a number, an object, a promise), or it
throws. -/
inductive JsReturn where
  | nullish
  | string (s : List Char)
  | other
  | thrown
  deriving DecidableEq

/-- The result the callback passes on (src/wasm.rs:377-387): `as_string` gives `None` for a value
that is no string. -/
def JsReturn.text : JsReturn → Option (List Char)
  | .string s => some s
  | _ => none

/-- The closure around the JavaScript function (src/wasm.rs:371-389). -/
def jsCallback (f : List Char → List Char → JsReturn) (language code : List Char) : Option (List Char) :=
  (f language code).text

/-- `format_with_warnings` (src/wasm.rs:286-308) on decoded options; `format`
(src/wasm.rs:264-274) gives the first component (src/lib.rs:204-224 differs from 249-273 only in
dropping the warnings). -/
def jsFormatWithWarnings (cx : Cx) (parse : List Char → Node) (j : JsOptions) (input : List Char) :
    List Char × List Warning :=
  formatWithWarnings { cx with opts := j.toOptions, callback := none } parse input

/-- `format_with_code_formatter` (src/wasm.rs:330-405) on decoded options. It sets the same parser
options as `format_with_warnings` (src/wasm.rs:360-366 and src/lib.rs:258-264), so the parser is the
same parameter. -/
def jsFormatWithCodeFormatter (cx : Cx) (parse : List Char → Node) (j : JsOptions)
    (f : Option (List Char → List Char → JsReturn)) (input : List Char) : List Char × List Warning :=
  if input = [] then ([], [])
  else
    let r := formatDoc (withSource { cx with opts := j.toOptions, callback := f.map jsCallback } input)
      (parse input)
    (r.output, r.warnings)

end Hongdown.Model
