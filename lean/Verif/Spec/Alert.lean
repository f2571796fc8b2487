import Verif.Str
import Verif.Model.Ast

/-!
# GitHub alerts
-/

namespace Hongdown.Spec

open Model

/-- The kinds of alerts, as GitHub names them. -/
def alertKinds : List (List Char × AlertType) :=
  [("note".toList, .note), ("tip".toList, .tip), ("important".toList, .important),
   ("warning".toList, .warning), ("caution".toList, .caution)]

/-- Reads the first line of an alert: `>`, spaces, and the kind in any case between `[!` and `]`.
The rest of the line is the title. -/
def readAlert : List Char → Option (AlertType × List Char)
  | '>' :: r =>
    match r.dropWhile (· = ' ') with
    | '[' :: '!' :: r =>
      match r.dropWhile (· ≠ ']') with
      | ']' :: title =>
        (alertKinds.find? fun k => k.1 = (r.takeWhile (· ≠ ']')).map Char.toLower).map fun k => (k.2, trim title)
      | _ => none
    | _ => none
  | _ => none

/-- The lines of a text up to the first line break. -/
def firstLine (s : List Char) : List Char := s.takeWhile (· ≠ '\n')

end Hongdown.Spec
