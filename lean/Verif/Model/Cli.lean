import Verif.Model.Config
import Verif.Model.State

/-!
# Model of `src/main.rs`

Parameters are the file system, the directory walk, the search of `collect_files` (modelled in
Verif/Model/Collect.lean), the formatting function, the diff algorithm and the order in which the workers run. Formatting is
total: `format_with_warnings` returns `Err` nowhere (src/lib.rs:249-273), so the branches for
it are left out, and so are panics while formatting.
-/

namespace Hongdown.Model

/-- A file name as given on the command line. Files are told apart by their names; links and
different spellings of a name are different files here. -/
abbrev Name := List Char

/-- The contents of the files; `none` if a file cannot be read as UTF-8 text. -/
abbrev Disk := Name → Option (List Char)

/-- `ExitCode`, and the exit of a panicking program. -/
inductive Exit where
  | success
  | failure
  | panic
  deriving DecidableEq

/-- The messages on standard error, without their wording. -/
inductive Msg where
  | config
  | formatter (language : List Char)
  | dashes
  | noInput
  | collect
  | stdinError
  | warning (name : Name) (w : Warning)
  | readError (name : Name)
  | writeError (name : Name)
  | notFormatted (name : Name)
  deriving DecidableEq

/-- `format_with_warnings` with the options filled in. -/
abbrev Fmt := List Char → List Char × List Warning

/-! ### Parallel processing -/

/-- How far the closure of `process_files_parallel` has come for one file: not begun, read,
writing with `written` characters on disk and `rest` to come, done. -/
inductive Phase where
  | start
  | loaded (input : List Char)
  | writing (written : Nat) (rest : List Char)
  | done
  deriving DecidableEq

/-- What can go wrong when writing (`fs::write`: opening with truncation, then writing). -/
structure Faults where
  /-- Opening for writing fails. -/
  denied : Name → Bool
  /-- Writing fails after so many characters. -/
  failAt : Name → Option Nat

/-- The state of `process_files_parallel` (src/main.rs:190-250). -/
structure Par where
  disk : Disk
  phases : List Phase
  hasError : Bool := false
  allFormatted : Bool := true
  stdout : List Name := []
  stderr : List Msg := []

/-- Write one character at a position, filling a gap with zeros as files do. -/
def overwriteAt (s : List Char) (i : Nat) (c : Char) : List Char :=
  s.take i ++ List.replicate (i - s.length) '\x00' ++ c :: s.drop (i + 1)

/-- Change one file. -/
def Disk.set (d : Disk) (n : Name) (s : List Char) : Disk :=
  fun m => if m = n then some s else d m

/-- The next step of the closure (src/main.rs:199-243) for file number `i`: reading is one
step, formatting and deciding one, writing takes one step for each character. Reading and the
opening of the file for writing do not fail for other reasons than those given. -/
def Par.step (fmt : Fmt) (faults : Faults) (files : List Name) (write check : Bool) (s : Par) (i : Nat) :
    Par :=
  match files[i]?, s.phases[i]? with
  | some name, some .start =>
    match s.disk name with
    | none =>
      { s with phases := s.phases.set i .done, hasError := true, stderr := s.stderr ++ [.readError name] }
    | some input => { s with phases := s.phases.set i (.loaded input) }
  | some name, some (.loaded input) =>
    let output := (fmt input).1
    let s : Par := { s with stderr := s.stderr ++ (fmt input).2.map (Msg.warning name) }
    if check then
      if input ≠ output then
        { s with phases := s.phases.set i .done, allFormatted := false,
                 stderr := s.stderr ++ [.notFormatted name] }
      else { s with phases := s.phases.set i .done }
    else if write ∧ input ≠ output then
      if faults.denied name then
        { s with phases := s.phases.set i .done, hasError := true, stderr := s.stderr ++ [.writeError name] }
      else { s with phases := s.phases.set i (.writing 0 output), disk := s.disk.set name [] }
    else { s with phases := s.phases.set i .done }
  | some name, some (.writing written rest) =>
    match rest with
    | [] => { s with phases := s.phases.set i .done, stdout := s.stdout ++ [name] }
    | c :: rest =>
      if faults.failAt name = some written then
        { s with phases := s.phases.set i .done, hasError := true, stderr := s.stderr ++ [.writeError name] }
      else
        { s with phases := s.phases.set i (.writing (written + 1) rest),
                 disk := s.disk.set name (overwriteAt ((s.disk name).getD []) written c) }
  | _, _ => s

/-- All steps in the order of a schedule. -/
def Par.run (fmt : Fmt) (faults : Faults) (files : List Name) (write check : Bool) (s : Par)
    (schedule : List Nat) : Par :=
  schedule.foldl (Par.step fmt faults files write check) s

/-- The state before the first step. -/
def Par.init (files : List Name) (disk : Disk) : Par :=
  { disk := disk, phases := files.map fun _ => .start }

/-- All files are finished. -/
def Par.finished (s : Par) : Bool := s.phases.all (· = .done)

/-- The exit code (src/main.rs:245-249). -/
def Par.exit (check : Bool) (s : Par) : Exit :=
  if s.hasError || (check && !s.allFormatted) then .failure else .success

/-! ### Sequential processing -/

/-- What a mode prints and how it ends. -/
structure Printed where
  exit : Exit := .success
  stdout : List Char := []
  stderr : List Msg := []
  deriving DecidableEq

/-- `process_files_sequential` (src/main.rs:253-284) and `process_files_diff`
(src/main.rs:287-318); they differ in what is printed for a file. -/
def processSequential (fmt : Fmt) (disk : Disk) (print : Name → List Char → List Char → List Char) :
    List Name → Printed
  | [] => {}
  | name :: rest =>
    match disk name with
    | none => { exit := .failure, stderr := [.readError name] }
    | some input =>
      let r := processSequential fmt disk print rest
      { exit := r.exit
        stdout := print name input (fmt input).1 ++ r.stdout
        stderr := (fmt input).2.map (Msg.warning name) ++ r.stderr }

/-- `ChangeTag` of the similar crate. -/
inductive ChangeTag where
  | delete
  | insert
  | equal
  deriving DecidableEq

/-- The hunks of a unified diff: header and changed lines. -/
abbrev Hunks := List (List Char × List (ChangeTag × List Char))

/-- One line of a hunk (src/main.rs:333-343). -/
def printChange (c : ChangeTag × List Char) : List Char :=
  (match c.1 with
    | .delete => '-'
    | .insert => '+'
    | .equal => ' ') :: c.2 ++ (if c.2.getLast? = some '\n' then [] else ['\n'])

/-- `print_diff` (src/main.rs:321-345); `diff` is what the similar crate computes. -/
def printDiff (diff : List Char → List Char → Hunks) (name : Name) (original formatted : List Char) :
    List Char :=
  if original = formatted then []
  else
    "--- ".toList ++ name ++ ['\n'] ++ "+++ ".toList ++ name ++ ['\n'] ++
      ((diff original formatted).map fun h => h.1 ++ ['\n'] ++ (h.2.map printChange).flatten).flatten

/-! ### Directories -/

/-- The last component of a name (`Path::file_name`). Simplification: names that end in `/` or
`..` do not occur among the files of a walk. -/
def fileName (name : Name) : List Char := (name.reverse.takeWhile (· ≠ '/')).reverse

/-- `Path::extension`: what follows the last dot, unless that is the first character. -/
def extension (name : Name) : Option (List Char) :=
  let file := fileName name
  match file.reverse.dropWhile (· ≠ '.') with
  | [] => none
  | [_] => none
  | _ => some (file.reverse.takeWhile (· ≠ '.')).reverse

/-- `str::eq_ignore_ascii_case`. -/
def eqIgnoreAsciiCase (a b : List Char) : Bool := a.map Char.toLower = b.map Char.toLower

/-- The test of src/main.rs:371-373. -/
def isMarkdownFile (name : Name) : Bool :=
  match extension name with
  | some ext => eqIgnoreAsciiCase ext "md".toList || eqIgnoreAsciiCase ext "markdown".toList
  | none => false

/-- Comparison of strings by code points; that is the order of their UTF-8 bytes. -/
def strLe : List Char → List Char → Bool
  | [], _ => true
  | _ :: _, [] => false
  | a :: s, b :: t => a.toNat < b.toNat || (a.toNat = b.toNat && strLe s t)

/-- Comparison of lists of strings. -/
def strsLe : List (List Char) → List (List Char) → Bool
  | [], _ => true
  | _ :: _, [] => false
  | a :: s, b :: t => if a = b then strsLe s t else strLe a b

/-- `Ord` for paths: component by component. Simplification: only `/` separates, and empty
components are kept. -/
def pathLe (a b : Name) : Bool := strsLe (splitOn '/' a) (splitOn '/' b)

/-- One step of the sort below. -/
def insertSorted (n : Name) : List Name → List Name
  | [] => [n]
  | m :: ms => if pathLe n m then n :: m :: ms else m :: insertSorted n ms

/-- `Vec::sort` for paths. -/
def sortPaths (ns : List Name) : List Name := ns.foldr insertSorted []

/-- `collect_md_files` (src/main.rs:364-380); `walk` are the regular files that walkdir finds,
in its order. -/
def collectMdFiles (walk : Name → List Name) (dir : Name) : List Name :=
  sortPaths ((walk dir).filter isMarkdownFile)

/-- `expand_paths` (src/main.rs:351-361). -/
def expandPaths (isDir : Name → Bool) (walk : Name → List Name) (paths : List Name) : List Name :=
  (paths.map fun p => if isDir p then collectMdFiles walk p else [p]).flatten

/-! ### The program -/

/-- `Args` (src/main.rs:20-48), parsed. -/
structure Args where
  files : List Name := []
  write : Bool := false
  check : Bool := false
  diff : Bool := false
  stdin : Bool := false
  lineWidth : Option Nat := none
  config : Option Path := none

/-- `conflicts_with_all` (src/main.rs:27-36): clap refuses other combinations. -/
def Args.ok (a : Args) : Bool :=
  !(a.write && a.check) && !(a.write && a.diff) && !(a.check && a.diff)

/-- The world around the program. -/
structure World where
  places : Places
  cwd : Path
  disk : Disk
  isDir : Name → Bool
  walk : Name → List Name
  /-- `Config::collect_files` (src/config.rs:1075-1125). -/
  collect : Config → Path → Option (List Name)
  /-- Standard input; `none` if it is no UTF-8 text. -/
  stdin : Option (List Char)
  faults : Faults
  fmt : Options → Fmt
  diff : List Char → List Char → Hunks
  /-- The order of the workers. -/
  schedule : List Nat

/-- The end of the program. -/
structure Result where
  exit : Exit
  stdout : List Char := []
  stderr : List Msg := []
  disk : Disk

/-- The files to process (src/main.rs:120-153); a message instead if there are none. -/
def selectFiles (w : World) (args : Args) (config : Config) (dir : Path) (stdinRequested : Bool) :
    Except Msg (List Name) :=
  if args.files = [] ∧ stdinRequested = false then
    if config.includes ≠ [] then
      match w.collect config dir with
      | some files => .ok files
      | none => .error .collect
    else .error .noInput
  else if stdinRequested then
    .ok (expandPaths w.isDir w.walk (args.files.filter (· ≠ ['-'])))
  else .ok (expandPaths w.isDir w.walk args.files)

/-- `main` after loading the configuration (src/main.rs:56-187). The formatters are a hash map, so
the first bad one is any one; here it is the first in the list. -/
def runWith (w : World) (args : Args) (config : Config) (dir : Path) : Result :=
  match toOptions config args.lineWidth with
  | none => { exit := .panic, disk := w.disk }
  | some options =>
    match config.codeBlock.formatters.find? (·.2.command.isEmpty) with
    | some f => { exit := .failure, stderr := [.formatter f.1], disk := w.disk }
    | none =>
      if (validateDashSettings options.punct).isSome then
        { exit := .failure, stderr := [.dashes], disk := w.disk }
      else
        let stdinRequested := args.stdin || args.files.any (· = ['-'])
        match selectFiles w args config dir stdinRequested with
        | .error e => { exit := .failure, stderr := [e], disk := w.disk }
        | .ok files =>
          if stdinRequested then
            match w.stdin with
            | none => { exit := .failure, stderr := [.stdinError], disk := w.disk }
            | some input =>
              let output := (w.fmt options input).1
              { exit := .success
                stdout := if args.diff then printDiff w.diff "<stdin>".toList input output else output
                stderr := (w.fmt options input).2.map (Msg.warning "<stdin>".toList)
                disk := w.disk }
          else if args.write || args.check then
            let s := (Par.init files w.disk).run (w.fmt options) w.faults files args.write args.check w.schedule
            { exit := s.exit args.check
              stdout := (s.stdout.map (· ++ ['\n'])).flatten
              stderr := s.stderr
              disk := s.disk }
          else
            let r := processSequential (w.fmt options) w.disk
              (fun name input output => if args.diff then printDiff w.diff name input output else output) files
            { exit := r.exit, stdout := r.stdout, stderr := r.stderr, disk := w.disk }

/-- `main` (src/main.rs:50-187). -/
def runMain (w : World) (args : Args) : Result :=
  let (config, dir, warned) := loadConfig w.places w.cwd args.config
  let r := runWith w args config dir
  { r with stderr := (if warned then [.config] else []) ++ r.stderr }

end Hongdown.Model
