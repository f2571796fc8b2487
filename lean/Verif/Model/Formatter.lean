/-!
# Model of `src/serializer/formatter.rs`

The program and the formatter it starts are two processes joined by pipes. A schedule says in
which order they run and how time passes. The formatter (the child) is an arbitrary program: a
list of actions with a status at the end. What it writes does not depend on what it reads; a
different program may be given for every input.
-/

namespace Hongdown.Model

/-- A byte. -/
abbrev Byte := UInt8

/-- What the child does. -/
inductive Act where
  /-- Read one byte if there is one; at the end of the input do nothing. -/
  | read
  /-- Read until the end of the input. -/
  | readAll
  /-- Write one byte to standard output. -/
  | out (b : Byte)
  /-- Write one byte to standard error. -/
  | err (b : Byte)
  /-- Compute for some milliseconds. -/
  | work (ms : Nat)
  /-- Go on for ever. -/
  | forever
  deriving DecidableEq

/-- `ExitStatus`; `none` is the end by a signal. -/
abbrev Status := Option Int

/-- `ExitStatus::success`. -/
def Status.success (s : Status) : Bool := s = some 0

/-- `FormatterError` (src/serializer/formatter.rs:14-32) without the texts of system errors. -/
inductive FormatterError where
  | emptyCommand
  | spawn
  | stdin
  | timeout
  | nonZeroExit (code : Status) (stderr : List Byte)
  | invalidUtf8
  deriving DecidableEq

/-- `Result<String, FormatterError>`. -/
inductive Formatted where
  | ok (output : List Byte)
  | error (e : FormatterError)
  deriving DecidableEq

/-- The outside. -/
structure System where
  /-- The capacity of a pipe in bytes. -/
  cap : Nat
  /-- The program can be started. -/
  canSpawn : Bool
  /-- `String::from_utf8` fails on a byte string. -/
  isUtf8 : List Byte → Bool
  /-- `try_wait` fails at this time. -/
  waitFails : Nat → Bool

/-- Where `run_formatter` is: writing to standard input; in the loop, with the next poll at
`wakeAt` (the loop began at `start`) and `polls` polls made; finished. -/
inductive Runner where
  | writing (rest : List Byte)
  | waiting (start wakeAt polls : Nat)
  | finished (polls : Nat) (result : Formatted)
  deriving DecidableEq

/-- Both processes. -/
structure Duo where
  runner : Runner
  /-- The actions to come. -/
  child : List Act
  /-- The status of the child once it has exited. -/
  exited : Option Status := none
  /-- Bytes in the pipes: standard input, output and error of the child. -/
  pipeIn : List Byte := []
  pipeOut : List Byte := []
  pipeErr : List Byte := []
  /-- Milliseconds. -/
  clock : Nat := 0
  deriving DecidableEq

/-- The program gets a turn. Writing (src/serializer/formatter.rs:99-104): one byte if the pipe
has room, an error if the child is gone, nothing otherwise (the program waits); after the last
byte the loop begins. The loop (src/serializer/formatter.rs:111-135): nothing before the time of
the next poll. `wait_with_output` returns what is in the pipes, as the child has exited; it is
assumed not to fail, and processes started by the child do not hold the pipes open. The code for
an error does not kill the child, so it may go on. -/
def runnerStep (sys : System) (timeoutSecs : Nat) (s : Duo) : Duo :=
  match s.runner with
  | .writing [] => { s with runner := .waiting s.clock s.clock 0 }
  | .writing (b :: rest) =>
    if s.exited.isSome then { s with runner := .finished 0 (.error .stdin) }
    else if s.pipeIn.length < sys.cap then
      { s with runner := .writing rest, pipeIn := s.pipeIn ++ [b] }
    else s
  | .waiting start wakeAt polls =>
    if s.clock < wakeAt then s
    else if sys.waitFails s.clock then { s with runner := .finished (polls + 1) (.error .spawn) }
    else
      match s.exited with
      | some status =>
        if Status.success status then
          let output := if sys.isUtf8 s.pipeOut then .ok s.pipeOut else .error .invalidUtf8
          { s with runner := .finished (polls + 1) output }
        else { s with runner := .finished (polls + 1) (.error (.nonZeroExit status s.pipeErr)) }
      | none =>
        if timeoutSecs * 1000 ≤ s.clock - start then
          -- the child is killed
          { s with runner := .finished (polls + 1) (.error .timeout), exited := some none }
        else { s with runner := .waiting start (s.clock + 50) (polls + 1) }
  | .finished _ _ => s

/-- The program still holds its end of the child's standard input. -/
def Duo.stdinOpen (s : Duo) : Bool :=
  match s.runner with
  | .writing _ => true
  | _ => false

/-- The child gets a turn. Computing takes as long as the clock says, at least. -/
def childStep (sys : System) (status : Status) (s : Duo) : Duo :=
  if s.exited.isSome then s
  else
    match s.child with
    | [] => { s with exited := some status }
    | .read :: acts =>
      match s.pipeIn with
      | _ :: bs => { s with child := acts, pipeIn := bs }
      | [] => if s.stdinOpen then s else { s with child := acts }
    | .readAll :: acts =>
      match s.pipeIn with
      | _ :: bs => { s with pipeIn := bs }
      | [] => if s.stdinOpen then s else { s with child := acts }
    | .out b :: acts =>
      if s.pipeOut.length < sys.cap then { s with child := acts, pipeOut := s.pipeOut ++ [b] } else s
    | .err b :: acts =>
      if s.pipeErr.length < sys.cap then { s with child := acts, pipeErr := s.pipeErr ++ [b] } else s
    | .work 0 :: acts => { s with child := acts }
    | .work _ :: _ => s
    | .forever :: _ => s

/-- A millisecond passes; the child has computed for that long, if it does. -/
def tick (s : Duo) : Duo :=
  { s with
    clock := s.clock + 1
    child := match s.child with
      | .work (n + 1) :: acts => .work n :: acts
      | acts => acts }

/-- An entry of a schedule. -/
inductive Turn where
  | runner
  | child
  | time
  deriving DecidableEq

/-- One entry. -/
def Duo.step (sys : System) (timeoutSecs : Nat) (status : Status) (s : Duo) : Turn → Duo
  | .runner => runnerStep sys timeoutSecs s
  | .child => childStep sys status s
  | .time => tick s

/-- A schedule. -/
def Duo.run (sys : System) (timeoutSecs : Nat) (status : Status) (s : Duo) (turns : List Turn) : Duo :=
  turns.foldl (Duo.step sys timeoutSecs status) s

/-- `run_formatter` (src/serializer/formatter.rs:79-136) up to the start of the child: an error
for an empty command or if the program cannot be started. -/
def startFormatter (sys : System) (command : List (List Char)) (code : List Byte) (child : List Act) : Duo :=
  if command = [] then { runner := .finished 0 (.error .emptyCommand), child := [], exited := some none }
  else if sys.canSpawn then { runner := .writing code, child := child }
  else { runner := .finished 0 (.error .spawn), child := [], exited := some none }

/-- The result, if `run_formatter` has returned. -/
def Duo.result (s : Duo) : Option Formatted :=
  match s.runner with
  | .finished _ r => some r
  | _ => none

/-- The polls made. -/
def Duo.polls (s : Duo) : Nat :=
  match s.runner with
  | .writing _ => 0
  | .waiting _ _ n => n
  | .finished n _ => n

end Hongdown.Model
