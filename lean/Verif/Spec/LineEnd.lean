import Verif.Spec.Quote
import Verif.Model.Code

/-!
# The ends of lines

White space at the end of a line is seen by nobody, unless it is the two spaces of a hard line
break. No line of a formatted document should end in any other.
-/

namespace Hongdown.Spec
open Model

/-- The last character is no white space. -/
def EndsVisible (l : List Char) : Prop := ∃ u c, l = u ++ [c] ∧ isWs c = false

/-- A line with a hard line break after it. -/
def BreakLine (l : List Char) : Prop := ∃ u, l = u ++ [' ', ' '] ∧ EndsVisible u

/-- A line which is empty, or ends in a visible character, or, with `hard`, in a hard line break. -/
def TidyLine (hard : Bool) (l : List Char) : Prop :=
  l = [] ∨ EndsVisible l ∨ (hard = true ∧ BreakLine l)

/-- All lines of the text are tidy. -/
def TidyLines (hard : Bool) (s : List Char) : Prop := ∀ l ∈ splitOn '\n' s, TidyLine hard l

/-- A piece of text with no white space at its ends. -/
def Trimmed (s : List Char) : Prop := EndsVisible s ∧ ∃ c u, s = c :: u ∧ isWs c = false

/-- The text of a paragraph: between two line breaks, hard (`\n`) or soft (U+0000), there is
something, and there is no white space at the breaks. Without `hard` there are no hard breaks. -/
def TidyText (hard : Bool) (s : List Char) : Prop :=
  (∀ seg ∈ splitOn '\n' s, ∀ piece ∈ splitOn '\x00' seg, Trimmed piece) ∧ (hard = false → '\n' ∉ s)

/-- A reference with an address, on one line. -/
def TidyRef (r : Ref) : Prop := '\n' ∉ r.label ∧ '\n' ∉ r.url ∧ '\n' ∉ r.title ∧ EndsVisible r.url

/-- Options without white space where there should be a character to see. -/
structure TidyOptions (o : Options) : Prop where
  bullet : o.unorderedMarker ≠ '\n'
  odd : o.oddLevelMarker ≠ '\n'
  even : o.evenLevelMarker ≠ '\n'
  fence : isWs o.fenceChar = false
  fenceLength : 0 < o.minFenceLength
  style : EndsVisible o.thematicBreakStyle ∧ '\n' ∉ o.thematicBreakStyle
  language : (o.defaultLanguage = [] ∨ EndsVisible o.defaultLanguage) ∧ '\n' ∉ o.defaultLanguage
  sentence : o.headingSentenceCase = false

/-- A block that begins on a line of its own. -/
def beginsLine (n : Node) : Bool :=
  match n.value with
  | .list _ _ => true
  | .codeBlock _ _ => true
  | .blockQuote => true
  | .alert _ _ => true
  | _ => false

/-- A block of code. -/
def isCode (n : Node) : Bool :=
  match n.value with
  | .codeBlock _ _ => true
  | _ => false

mutual
/-- Trees all of whose blocks have something to write, and whose own text has no white space at
the ends of lines. `quoted` and `item` say where the block stands. -/
def TidyNode (cx : Cx) (hard quoted item : Bool) : Node → Prop
  | .mk v p cs =>
    match v with
    | .paragraph => NoAbbreviation cx p ∧ TidyText hard (collectInlines cx cs).1 ∧
        ∀ r ∈ (collectInlines cx cs).2, TidyRef r
    | .heading _ => '\n' ∉ (collectTexts cx cs).1 ∧ EndsVisible (collectTexts cx cs).1 ∧
        ∀ r ∈ (collectTexts cx cs).2, TidyRef r
    | .codeBlock info literal => '\n' ∉ info ∧ ∀ l ∈ lines (codeContent cx info literal).1,
        (l = [] ∧ (quoted && item) = false) ∨ EndsVisible l
    | .htmlBlock literal => TidyLines hard literal ∧ ∃ c u, literal = c :: u ∧ c ≠ '\n'
    | .frontMatter content => TidyLines hard (trim content) ∧ trim content ≠ []
    | .table _ => cs ≠ [] ∧ ∀ row ∈ cs, ∀ cell ∈ row.children,
        '\n' ∉ (collectInlines cx cell.children).1 ∧
        ∀ r ∈ (collectInlines cx cell.children).2, TidyRef r
    | .thematicBreak => True
    | .list _ _ => cs ≠ [] ∧ TidyNodes cx hard quoted item cs
    | .item => (cs.head?.any fun n => !beginsLine n) = true ∧ TidyNodes cx hard quoted true cs
    | .taskItem _ => (cs.head?.any fun n => !beginsLine n) = true ∧ TidyNodes cx hard quoted true cs
    | .blockQuote => cs ≠ [] ∧ TidyNodes cx hard true false cs
    | .alert _ _ => TidyNodes cx hard true false cs
    | .descriptionList => cs ≠ [] ∧ TidyNodes cx hard quoted item cs
    | .descriptionItem => cs ≠ [] ∧ TidyNodes cx hard quoted item cs
    | .descriptionTerm => cs ≠ [] ∧ TidyNodes cx hard quoted item cs
    | .descriptionDetails => (cs.head?.any fun n => !isCode n) = true ∧
        TidyNodes cx hard quoted item cs
    | _ => False

def TidyNodes (cx : Cx) (hard quoted item : Bool) : List Node → Prop
  | [] => True
  | n :: ns => TidyNode cx hard quoted item n ∧ TidyNodes cx hard quoted item ns
end

end Hongdown.Spec
