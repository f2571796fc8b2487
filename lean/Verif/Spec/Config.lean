import Verif.Model.Config

/-!
# Configuration

What README.md and the comments of src/config.rs promise.
-/

namespace Hongdown.Spec
open Model

/-- A dash pattern: printable ASCII characters without white space, at least one. -/
def DashOk (p : Option (List Char)) : Prop :=
  ∀ s, p = some s → s ≠ [] ∧ ∀ c ∈ s, '!' ≤ c ∧ c ≤ '~'

/-- A style that the constructor of `ThematicBreakStyle` takes: besides white space only
marker characters, three of one kind and fewer than three of the others. -/
structure StyleOk (s : List Char) : Prop where
  chars : ∀ c ∈ trim s, c = '*' ∨ c = '-' ∨ c = '_' ∨ c = ' ' ∨ c = '\t'
  one : ∃ m, (m = '*' ∨ m = '-' ∨ m = '_') ∧ 3 ≤ s.count m ∧
    ∀ m', (m' = '*' ∨ m' = '-' ∨ m' = '_') → m' ≠ m → s.count m' < 3

/-- The options the formatter is meant for (README.md:207-254). -/
structure OptionsOk (o : Options) : Prop where
  lineWidth : 8 ≤ o.lineWidth
  leadingSpaces : o.leadingSpaces ≤ 3
  trailingSpaces : o.trailingSpaces ≤ 3
  indentWidth : 1 ≤ o.indentWidth
  orderedIndentWidth : 1 ≤ o.orderedListIndentWidth
  unorderedMarker : o.unorderedMarker = '-' ∨ o.unorderedMarker = '*' ∨ o.unorderedMarker = '+'
  oddMarker : o.oddLevelMarker = '.' ∨ o.oddLevelMarker = ')'
  evenMarker : o.evenLevelMarker = '.' ∨ o.evenLevelMarker = ')'
  fenceChar : o.fenceChar = '~' ∨ o.fenceChar = '`'
  minFenceLength : 3 ≤ o.minFenceLength
  style : StyleOk o.thematicBreakStyle
  breakSpaces : o.thematicBreakLeadingSpaces ≤ 3
  enDash : DashOk o.punct.enDash
  emDash : DashOk o.punct.emDash

/-- A CommonMark thematic break (section 4.1): up to three spaces, then three or more of one
marker character with spaces and tabs between and after them. -/
def IsThematicBreak (line : List Char) : Prop :=
  ∃ k m rest, k ≤ 3 ∧ (m = '*' ∨ m = '-' ∨ m = '_') ∧ line = List.replicate k ' ' ++ m :: rest ∧
    (∀ c ∈ rest, c = m ∨ c = ' ' ∨ c = '\t') ∧ 2 ≤ rest.count m

/-- The value of a setting after several layers: that of the last one which sets it, or the
default. -/
def lastSet {α : Type} (settings : List (Option α)) (default : α) : α :=
  match settings.reverse.find? Option.isSome with
  | some (some v) => v
  | _ => default

/-- The configuration file of a project: in the start directory or the nearest directory
above with one. -/
def IsProjectFile (w : Places) (start p : Path) : Prop :=
  ∃ dir below, start = dir ++ below ∧ p = dir ++ [".hongdown.toml".toList] ∧
    (w.config p).isSome = true ∧
    ∀ b1 b2, below = b1 ++ b2 → b1 ≠ [] →
      w.config (dir ++ b1 ++ [".hongdown.toml".toList]) = none

/-- The settings of a file, if it exists. -/
def layerAt (w : Places) (p : Option Path) : Option ConfigLayer :=
  ((p.bind w.config).bind id).bind readLayer

/-- A file that exists but is no valid configuration. -/
def Broken (w : Places) (p : Path) : Prop := ∃ t, w.config p = some t ∧ t.bind readLayer = none

/-- The files below the project file in increasing order of priority (README.md:165-175). -/
def lowerPaths (w : Places) : List (Option Path) :=
  [some ["etc".toList, "hongdown".toList, "config.toml".toList],
   w.home.map (· ++ [".hongdown.toml".toList]),
   w.configDir.map (· ++ ["hongdown".toList, "config.toml".toList])]

end Hongdown.Spec
