import Verif.Model.Cli

/-!
# Model of `Config::collect_files` (src/config.rs:1075-1125)

The walk itself is done by the `ignore` crate (version 0.4), which is not part of the
repository. The parts of it that `collect_files` relies on are modelled from its documentation
and are trusted: override patterns are read like lines of a _.gitignore_ file with the meaning
of `!` turned around, the last pattern that matches decides, a file that no pattern matches is
left out if there is a pattern without `!`, overrides come before every other rule, and a
directory that is left out is not entered. Parameters are the tree of files, the matching of
one glob pattern, and the rules of _.ignore_ and _.gitignore_ files.
-/

namespace Hongdown.Model

/-- What stands in a directory. A link to a file counts as a file (`Path::is_file` follows
links), and a link to a directory as `other` (`follow_links` is off). -/
inductive Entry where
  | file (name : List Char)
  | dir (name : List Char) (entries : List Entry)
  /-- Neither a file nor a directory. -/
  | other (name : List Char)
  /-- A directory that cannot be read. -/
  | unreadable (name : List Char)

/-- `ignore::Match`. -/
inductive Verdict where
  | undecided
  | ignore
  | whitelist
  deriving DecidableEq

/-- `Match::or`. -/
def Verdict.or : Verdict → Verdict → Verdict
  | .undecided, v => v
  | v, _ => v

/-- One line added to the `OverrideBuilder`, with its leading `!` taken off. -/
structure Rule where
  negated : Bool
  glob : List Char
  deriving DecidableEq

/-- `GitignoreBuilder::add_line` up to the building of the glob: comments and blank lines add no
pattern. A leading `\!` or `\#`, a leading or trailing `/` and everything else belong to the
glob. -/
def ruleOf (line : List Char) : Option Rule :=
  if line.head? = some '#' then none
  else
    match if ['\\', ' '] <:+ line then line else trimEnd line with
    | [] => none
    | '!' :: rest => some ⟨true, rest⟩
    | line => some ⟨false, line⟩

/-- What the walk depends on. Paths are relative to the directory that is searched; the `Bool`
says whether a path is a directory. -/
structure Scan where
  /-- `GlobBuilder::build` succeeds. -/
  globOk : List Char → Bool
  /-- A glob pattern matches a path. -/
  glob : List Char → Path → Bool → Bool
  /-- The rules of _.ignore_ files, which are always in force. -/
  dotIgnore : Path → Bool → Verdict
  /-- The rules of _.gitignore_ files and of _.git/info/exclude_. -/
  gitIgnore : Path → Bool → Verdict
  /-- The contents of a directory; `none` if it cannot be read. -/
  tree : Path → Option (List Entry)

/-- `Override::matched`. -/
def overrideVerdict (glob : List Char → Path → Bool → Bool) (rules : List Rule) (p : Path) (isDir : Bool) : Verdict :=
  if rules = [] then .undecided
  else
    match rules.reverse.find? (fun r => glob r.glob p isDir) with
    | some r => if r.negated then .ignore else .whitelist
    | none => if rules.any (!·.negated) && !isDir then .ignore else .undecided

/-- `Ignore::matched` for the settings of src/config.rs:1103-1109. -/
def entryVerdict (s : Scan) (gitAware : Bool) (rules : List Rule) (p : Path) (isDir : Bool) : Verdict :=
  (overrideVerdict s.glob rules p isDir).or
    ((s.dotIgnore p isDir).or (if gitAware then s.gitIgnore p isDir else .undecided))

mutual

/-- One entry of the directory `dir`: the files found, or `none` for an error. -/
def visit (verdict : Path → Bool → Verdict) (dir : Path) : Entry → Option (List Path)
  | .file n => some (if verdict (dir ++ [n]) false = .ignore then [] else [dir ++ [n]])
  | .dir n es => if verdict (dir ++ [n]) true = .ignore then some [] else visitAll verdict (dir ++ [n]) es
  | .other _ => some []
  | .unreadable n => if verdict (dir ++ [n]) true = .ignore then some [] else none

/-- The loop of src/config.rs:1113-1119, stopping at the first error. -/
def visitAll (verdict : Path → Bool → Verdict) (dir : Path) : List Entry → Option (List Path)
  | [] => some []
  | e :: es =>
    match visit verdict dir e with
    | none => none
    | some ps => (visitAll verdict dir es).map (ps ++ ·)

end

/-- The patterns in the order in which they are added (src/config.rs:1085-1097). -/
def overrideLines (config : Config) : List (List Char) := config.includes ++ config.excludes.map ('!' :: ·)

/-- `Config::collect_files` (src/config.rs:1075-1125); `none` for an error. `base` is absolute. -/
def collectFiles (s : Scan) (config : Config) (base : Path) : Option (List Name) :=
  if config.includes = [] then some []
  else
    let rules := (overrideLines config).filterMap ruleOf
    if rules.all (fun r => s.globOk r.glob) then
      match s.tree base with
      | none => none
      | some es =>
        (visitAll (entryVerdict s config.gitAware rules) [] es).map
          (fun ps => sortPaths (ps.map fun p => '/' :: joinWith ['/'] (base ++ p)))
    else none

end Hongdown.Model
