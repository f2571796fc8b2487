import Verif.Model.Formatter

/-!
# What a formatter process writes, and fair schedules
-/

namespace Hongdown.Spec

open Hongdown.Model

/-- Everything a child writes to standard output. -/
def allOut (acts : List Act) : List Byte :=
  acts.filterMap fun
    | .out b => some b
    | _ => none

/-- For how many milliseconds a child computes in all. -/
def allWork (acts : List Act) : Nat :=
  (acts.map fun
    | .work n => n
    | _ => 0).sum

/-- Everything a child writes to standard error. -/
def allErr (acts : List Act) : List Byte :=
  acts.filterMap fun
    | .err b => some b
    | _ => none

/-- A part of a schedule in which at least 50 milliseconds pass and then both processes get a
turn, the child first. -/
def IsRound (ts : List Turn) : Prop :=
  ∃ a b, ts = a ++ .child :: b ++ [.runner] ∧ 50 ≤ a.count .time

/-- A child that copies its input to its output byte by byte, as `cat` does. -/
def catActs (code : List Byte) : List Act := code.flatMap fun b => [.read, .out b]

end Hongdown.Spec
