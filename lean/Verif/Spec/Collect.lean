import Verif.Model.Collect

/-!
# Which files the `include` and `exclude` patterns select
-/

namespace Hongdown.Spec

open Model

/-- A file stands at the path `p` below a directory with these entries. -/
inductive FileAt : List Entry → Path → Prop
  | here {es : List Entry} {n : List Char} : .file n ∈ es → FileAt es [n]
  | deep {es sub : List Entry} {n : List Char} {p : Path} : .dir n sub ∈ es → FileAt sub p → FileAt es (n :: p)

/-- A directory that cannot be read stands at the path `p`. -/
inductive UnreadableAt : List Entry → Path → Prop
  | here {es : List Entry} {n : List Char} : .unreadable n ∈ es → UnreadableAt es [n]
  | deep {es sub : List Entry} {n : List Char} {p : Path} : .dir n sub ∈ es → UnreadableAt sub p → UnreadableAt es (n :: p)

/-- The name of an entry. -/
def entryName : Entry → List Char
  | .file n => n
  | .dir n _ => n
  | .other n => n
  | .unreadable n => n

/-- In every directory the names differ and have no slash. -/
inductive Tree : List Entry → Prop
  | mk {es : List Entry} (names : (es.map entryName).Nodup) (slash : ∀ e ∈ es, '/' ∉ entryName e)
      (below : ∀ n sub, .dir n sub ∈ es → Tree sub) : Tree es

/-- An `include` pattern that is an ordinary glob pattern: not blank, no comment, no negation and no
white space at its end. -/
structure PlainPattern (l : List Char) : Prop where
  comment : l.head? ≠ some '#'
  negation : l.head? ≠ some '!'
  ends : ∃ c, l.getLast? = some c ∧ isWs c = false

/-- The patterns of a configuration are ordinary ones. What an `exclude` pattern begins with does not
matter, since a `!` is put before it. -/
structure PlainPatterns (config : Config) : Prop where
  includes : ∀ l ∈ config.includes, PlainPattern l
  excludes : ∀ l ∈ config.excludes, ∀ c, l.getLast? = some c → isWs c = false

/-- The ignore files leave out the directory `q`. -/
def RuledOut (s : Scan) (config : Config) (q : Path) : Prop :=
  s.dotIgnore q true = .ignore ∨
  (s.dotIgnore q true = .undecided ∧ config.gitAware = true ∧ s.gitIgnore q true = .ignore)

/-- The directory `q` is searched. -/
def Entered (s : Scan) (config : Config) (q : Path) : Prop :=
  (∀ l ∈ config.excludes, s.glob l q true = false) ∧
  ((∃ l ∈ config.includes, s.glob l q true = true) ∨ ¬ RuledOut s config q)

/-- The file `p` is one that the patterns ask for. -/
def Selected (s : Scan) (config : Config) (p : Path) : Prop :=
  (∃ l ∈ config.includes, s.glob l p false = true) ∧
  (∀ l ∈ config.excludes, s.glob l p false = false) ∧
  ∀ q r, p = q ++ r → q ≠ [] → r ≠ [] → Entered s config q

/-- `.git` is one of the directories in which `p` stands. -/
def InGitDir (p : Path) : Prop := ∃ q n, p = q ++ n ∧ n ≠ [] ∧ ".git".toList ∈ q

/-- Git ignores the file `p`: a rule leaves it out, or a directory it stands in. -/
def GitIgnored (s : Scan) (p : Path) : Prop :=
  s.gitIgnore p false = .ignore ∨ ∃ q r, p = q ++ r ∧ q ≠ [] ∧ r ≠ [] ∧ s.gitIgnore q true = .ignore

end Hongdown.Spec
