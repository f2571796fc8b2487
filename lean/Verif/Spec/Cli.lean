import Verif.Model.Cli

/-!
# The command line program

What README.md and the comments of src/main.rs promise, file by file.
-/

namespace Hongdown.Spec
open Model

/-- What has to become of one file. -/
inductive Outcome where
  /-- It cannot be read. -/
  | unreadable
  /-- It is formatted already. -/
  | formatted
  /-- It differs from its formatted form, which can be written. -/
  | differs
  /-- It differs from its formatted form, and cannot be opened for writing. -/
  | denied
  /-- It differs from its formatted form, and writing stops after so many characters. -/
  | cut (n : Nat)
  deriving DecidableEq

/-- The outcome for a file in terms of its contents before. -/
def outcome (fmt : Fmt) (faults : Faults) (disk : Disk) (name : Name) : Outcome :=
  match disk name with
  | none => .unreadable
  | some input =>
    if (fmt input).1 = input then .formatted
    else if faults.denied name then .denied
    else
      match faults.failAt name with
      | some n => if n < (fmt input).1.length then .cut n else .differs
      | none => .differs

/-- The formatted form of a file. -/
def formatOf (fmt : Fmt) (disk : Disk) (name : Name) : List Char :=
  match disk name with
  | some input => (fmt input).1
  | none => []

/-- The contents of a file after `--write`. -/
def written (fmt : Fmt) (faults : Faults) (disk : Disk) (name : Name) : Option (List Char) :=
  match outcome fmt faults disk name with
  | .differs => some (formatOf fmt disk name)
  | .cut n => some ((formatOf fmt disk name).take n)
  | _ => disk name

/-- The warnings for a file. -/
def warningsOf (fmt : Fmt) (disk : Disk) (name : Name) : List Msg :=
  match disk name with
  | some input => (fmt input).2.map (.warning name)
  | none => []

/-- All messages for a file with `--write`. -/
def writeMessages (fmt : Fmt) (faults : Faults) (disk : Disk) (name : Name) : List Msg :=
  warningsOf fmt disk name ++
    (match outcome fmt faults disk name with
      | .unreadable => [.readError name]
      | .denied => [.writeError name]
      | .cut _ => [.writeError name]
      | _ => [])

/-- All messages for a file with `--check`. -/
def checkMessages (fmt : Fmt) (disk : Disk) (name : Name) : List Msg :=
  warningsOf fmt disk name ++
    (match disk name with
      | none => [.readError name]
      | some input => if (fmt input).1 = input then [] else [.notFormatted name])

/-- A name that counts as a Markdown file: something, a dot, and `md` or `markdown` in any
case. -/
def IsMarkdown (name : Name) : Prop :=
  ∃ dir stem ext, name = dir ++ stem ++ '.' :: ext ∧ (dir = [] ∨ dir.getLast? = some '/') ∧
    stem ≠ [] ∧ '/' ∉ stem ∧
    (ext.map Char.toLower = "md".toList ∨ ext.map Char.toLower = "markdown".toList)

/-- The outputs of all files before the first that cannot be read. -/
def readableOutputs (disk : Disk) (print : Name → List Char → List Char) (files : List Name) :
    List (List Char) :=
  (files.takeWhile fun n => (disk n).isSome).map fun n => print n ((disk n).getD [])

/-- A line of a unified diff seen from one side: its text if it belongs to this side, whose own
lines have the sign `own`. -/
def sideLine (own : Char) : List Char → List Char
  | c :: text => if c = own ∨ c = ' ' then text ++ ['\n'] else []
  | [] => []

/-- One side of a unified diff, after the two lines with the names: all lines of the hunks which
belong to it. The old side has the lines with `-`, the new side those with `+`. -/
def diffSide (own : Char) (patch : List Char) : List Char :=
  (((splitOn '\n' patch).drop 2).map (sideLine own)).flatten

/-- A line with its line break. -/
def IsLine (s : List Char) : Prop := ∃ t, s = t ++ ['\n'] ∧ '\n' ∉ t

end Hongdown.Spec
