import Verif.Lemmas.Collect

/-!
# C93, C94: the files that `include` and `exclude` patterns find

The walk of the `ignore` crate is modelled in Verif/Model/Collect.lean; how a single glob pattern
matches, what the ignore files say and the tree of files are parameters.
-/

namespace Hongdown.Props

open Model Spec

/-! ### C93: include and exclude -/

/-- **C93.** Without `include` patterns no file is found, whatever is excluded. -/
theorem c93_none (s : Scan) (config : Config) (base : Path) (h : config.includes = []) :
    collectFiles s config base = some [] := by
  rw [collectFiles, if_pos h]

theorem collect_plain {s : Scan} {config : Config} {base : Path} {es : List Entry} (hp : PlainPatterns config)
    (hok : ∀ l ∈ config.includes ++ config.excludes, s.globOk l = true) (ht : s.tree base = some es) (hi : config.includes ≠ []) :
    collectFiles s config base =
      (visitAll (entryVerdict s config.gitAware (plainRules config)) [] es).map
        (fun ps => sortPaths (ps.map fun p => '/' :: joinWith ['/'] (base ++ p))) := by
  have hall : (plainRules config).all (fun r => s.globOk r.glob) = true := by
    rw [List.all_eq_true]
    intro r hr
    simp only [plainRules, List.mem_append, List.mem_map] at hr
    rcases hr with ⟨l, hl, rfl⟩ | ⟨l, hl, rfl⟩
    · exact hok l (List.mem_append_left _ hl)
    · exact hok l (List.mem_append_right _ hl)
  unfold collectFiles
  rw [if_neg hi, rules_plain hp]
  simp only [hall, if_true, ht]

theorem way_entered {s : Scan} {config : Config} (hi : config.includes ≠ []) (p : Path) :
    Way (entryVerdict s config.gitAware (plainRules config)) [] p ↔
      ∀ q r, p = q ++ r → q ≠ [] → r ≠ [] → Entered s config q :=
  ⟨fun h q r e hq hr => (dir_entered hi q).mp (h q r e hq hr), fun h q r e hq hr => (dir_entered hi q).mpr (h q r e hq hr)⟩

/-- **C93.** With ordinary patterns exactly those files are found that some `include` pattern
matches, that no `exclude` pattern matches, and that stand in searched directories only: directories
that no `exclude` pattern matches and that are not left out by an ignore file (unless an `include`
pattern matches the directory itself). They come in the order of paths.

Not so for blank patterns and comments: see `c93_blank_false`. -/
theorem c93_files_partial (s : Scan) (config : Config) (base : Path) (es : List Entry) (files : List Name)
    (hp : PlainPatterns config) (hok : ∀ l ∈ config.includes ++ config.excludes, s.globOk l = true)
    (ht : s.tree base = some es) (h : collectFiles s config base = some files) :
    files.Pairwise (fun a b => pathLe a b = true) ∧
    ∀ n, n ∈ files ↔ ∃ p, FileAt es p ∧ Selected s config p ∧ n = '/' :: joinWith ['/'] (base ++ p) := by
  by_cases hi : config.includes = []
  · rw [c93_none s config base hi] at h
    cases h
    refine ⟨.nil, fun n => ⟨fun hn => (by cases hn), ?_⟩⟩
    rintro ⟨p, _, ⟨⟨l, hl, _⟩, _⟩, _⟩
    rw [hi] at hl
    cases hl
  · rw [collect_plain hp hok ht hi, Option.map_eq_some_iff] at h
    obtain ⟨ps, hps, rfl⟩ := h
    refine ⟨sortPaths_sorted _, fun n => ?_⟩
    rw [(sortPaths_perm _).mem_iff, List.mem_map]
    constructor
    · rintro ⟨x, hx, rfl⟩
      obtain ⟨p, hp, e, hv, hw⟩ := (visitAll_finds _ es [] ps hps x).mp hx
      have e : x = p := e
      subst e
      have hs := (file_selected hi x).mp hv
      exact ⟨x, hp, ⟨hs.1, hs.2, (way_entered hi x).mp hw⟩, rfl⟩
    · rintro ⟨p, hp, hs, rfl⟩
      exact ⟨p, (visitAll_finds _ es [] ps hps p).mpr
        ⟨p, hp, by simp, (file_selected hi p).mpr ⟨hs.1, hs.2.1⟩, (way_entered hi p).mpr hs.2.2⟩, rfl⟩

/-- **C93.** Each file is found once. -/
theorem c93_once_partial (s : Scan) (config : Config) (base : Path) (es : List Entry) (files : List Name)
    (hp : PlainPatterns config) (hok : ∀ l ∈ config.includes ++ config.excludes, s.globOk l = true)
    (ht : s.tree base = some es) (htree : Tree es) (h : collectFiles s config base = some files) : files.Nodup := by
  by_cases hi : config.includes = []
  · rw [c93_none s config base hi] at h
    cases h
    exact List.nodup_nil
  · rw [collect_plain hp hok ht hi, Option.map_eq_some_iff] at h
    obtain ⟨ps, hps, rfl⟩ := h
    rw [(sortPaths_perm _).nodup_iff]
    refine nodup_map_mem (fun x hx y hy e => ?_) (visitAll_nodup _ es [] ps hps htree)
    obtain ⟨p, hp, rfl, _⟩ := (visitAll_finds _ es [] ps hps x).mp hx
    obtain ⟨q, hq, rfl, _⟩ := (visitAll_finds _ es [] ps hps y).mp hy
    exact name_inj (fileAt_ne hp) (fileAt_ne hq) (fileAt_slash hp htree) (fileAt_slash hq htree) (List.tail_eq_of_cons_eq e)

/-- **C93.** The search fails exactly if a pattern is no glob pattern, or the directory cannot be
read, or a directory in it that would be searched cannot be read. -/
theorem c93_error_partial (s : Scan) (config : Config) (base : Path) (hp : PlainPatterns config) :
    collectFiles s config base = none ↔
      config.includes ≠ [] ∧
        ((∃ l ∈ config.includes ++ config.excludes, s.globOk l = false) ∨ s.tree base = none ∨
          ∃ es p, s.tree base = some es ∧ UnreadableAt es p ∧ Entered s config p ∧
            ∀ q r, p = q ++ r → q ≠ [] → r ≠ [] → Entered s config q) := by
  by_cases hi : config.includes = []
  · rw [c93_none s config base hi]
    exact ⟨fun h => (by cases h), fun h => absurd hi h.1⟩
  · by_cases hb : ∃ l ∈ config.includes ++ config.excludes, s.globOk l = false
    · refine ⟨fun _ => ⟨hi, .inl hb⟩, fun _ => ?_⟩
      obtain ⟨l, hl, hb⟩ := hb
      have : ¬ (plainRules config).all (fun r => s.globOk r.glob) = true := by
        rw [List.all_eq_true]
        intro h
        rcases List.mem_append.mp hl with hl | hl
        · have := h ⟨false, l⟩ (by simp [plainRules, hl])
          simp [hb] at this
        · have := h ⟨true, l⟩ (by simp [plainRules, hl])
          simp [hb] at this
      unfold collectFiles
      rw [if_neg hi, rules_plain hp]
      show (if (plainRules config).all (fun r => s.globOk r.glob) = true then _ else _) = _
      rw [if_neg this]
    · have hok : ∀ l ∈ config.includes ++ config.excludes, s.globOk l = true := by
        intro l hl
        cases hg : s.globOk l
        · exact absurd ⟨l, hl, hg⟩ hb
        · rfl
      cases ht : s.tree base with
      | none =>
        refine ⟨fun _ => ⟨hi, .inr (.inl rfl)⟩, fun _ => ?_⟩
        unfold collectFiles
        rw [if_neg hi]
        simp only [ht, ite_self]
      | some es =>
        rw [collect_plain hp hok ht hi, Option.map_eq_none_iff, visitAll_stuck]
        constructor
        · rintro ⟨p, h1, h2, h3⟩
          exact ⟨hi, .inr (.inr ⟨es, p, rfl, h1, (dir_entered hi _).mp (by simpa using h2), (way_entered hi p).mp h3⟩)⟩
        · rintro ⟨_, h | h | ⟨es', p, e, h1, h2, h3⟩⟩
          · exact absurd h hb
          · cases h
          · cases e
            exact ⟨p, h1, by simpa using (dir_entered hi _).mpr h2, (way_entered hi p).mpr h3⟩

theorem collect_rules {s : Scan} {config config' : Config} {base : Path}
    (h1 : (overrideLines config').filterMap ruleOf = (overrideLines config).filterMap ruleOf)
    (h2 : config'.includes = [] ↔ config.includes = []) (h3 : config'.gitAware = config.gitAware) :
    collectFiles s config' base = collectFiles s config base := by
  unfold collectFiles
  simp only [h1, h2, h3]

/-- **C93.** White space at the end of a pattern does not matter, unless a backslash stands before it. -/
theorem c93_spaces (s : Scan) (config : Config) (base : Path)
    (h : ∀ l ∈ config.includes ++ config.excludes, ¬ ['\\', ' '] <:+ l) :
    collectFiles s { config with
      includes := config.includes.map trimEnd
      excludes := config.excludes.map trimEnd } base = collectFiles s config base := by
  refine collect_rules ?_ (by simp) rfl
  have e1 : ∀ l ∈ config.includes, ruleOf (trimEnd l) = ruleOf l := fun l hl =>
    ruleOf_trim (h l (List.mem_append_left _ hl))
  have e2 : ∀ l ∈ config.excludes, ruleOf ('!' :: trimEnd l) = ruleOf ('!' :: l) := fun l hl =>
    ruleOf_trim_negated (h l (List.mem_append_right _ hl))
  simp only [overrideLines, List.filterMap_append, List.filterMap_map, List.map_map]
  congr 1
  · exact filterMap_congr_mem e1
  · exact filterMap_congr_mem e2

/-- **C93.** An `include` pattern that is blank or begins with `#` has no effect if there is another
one. -/
theorem c93_comments (s : Scan) (config : Config) (base : Path) (before after : List (List Char)) (l : List Char)
    (hl : l.head? = some '#' ∨ ∀ c ∈ l, isWs c = true) (h : config.includes = before ++ l :: after)
    (hne : before ++ after ≠ []) :
    collectFiles s { config with includes := before ++ after } base = collectFiles s config base := by
  refine collect_rules ?_ ⟨fun h' => absurd h' hne, fun h' => by simp [h] at h'⟩ rfl
  have e : ruleOf l = none := by
    rcases hl with hl | hl
    · rw [ruleOf, if_pos hl]
    · exact ruleOf_blank hl
  simp only [overrideLines, h, List.filterMap_append, List.filterMap_cons, e]

/-- One part of a path against one part of a pattern, for the examples: `*` stands for any
characters. -/
def exSegment : List Char → List Char → Bool
  | [], s => s.isEmpty
  | '*' :: p, [] => exSegment p []
  | '*' :: p, c :: s => exSegment p (c :: s) || exSegment ('*' :: p) s
  | _ :: _, [] => false
  | d :: p, c :: s => d = c && exSegment p s
termination_by p s => p.length + s.length

/-- A path against the parts of a pattern: `**` stands for any number of parts. -/
def exParts : List (List Char) → Path → Bool
  | [], s => s.isEmpty
  | p :: ps, [] => p = "**".toList && exParts ps []
  | p :: ps, c :: s =>
    if p = "**".toList then exParts ps (c :: s) || exParts (p :: ps) s
    else exSegment p c && exParts ps s
termination_by p s => p.length + s.length

/-- Glob patterns for the examples: one without a slash matches in every directory. -/
def exGlob (pattern : List Char) (p : Path) (_ : Bool) : Bool :=
  let parts := splitOn '/' pattern
  exParts (if parts.length = 1 then "**".toList :: parts else parts) p

/-- A project for the examples. Git ignores _draft.md_ and the directory _build_. -/
def exScan : Scan where
  globOk := fun _ => true
  glob := exGlob
  dotIgnore := fun _ _ => .undecided
  gitIgnore := fun p _ => if p = ["draft.md".toList] ∨ p = ["build".toList] then .ignore else .undecided
  tree := fun _ => some
    [.file "b.md".toList,
     .file "draft.md".toList,
     .dir "build".toList [.file "x.md".toList],
     .dir ".git".toList [.dir "refs".toList [.dir "heads".toList [.file "fix.md".toList]]],
     .dir "a".toList [.file "c.md".toList, .file "d.rs".toList, .dir "old".toList [.file "e.md".toList]],
     .file "main.rs".toList]

/-- The configuration with these patterns. -/
def exPatterns (includes excludes : List String) : Config :=
  { includes := includes.map String.toList, excludes := excludes.map String.toList }

/-- **C93.** In general this is false: a blank `include` pattern (or a comment) finds every file,
whatever it is. -/
theorem c93_blank_false :
    ¬ ∀ (s : Scan) (config : Config) (base : Path) (files : List Name), collectFiles s config base = some files →
      ∀ n ∈ files, ∃ p, n = '/' :: joinWith ['/'] (base ++ p) ∧ ∃ l ∈ config.includes, s.glob l p false = true := by
  intro h
  obtain ⟨p, e, l, hl, hg⟩ := h exScan (exPatterns [""] []) [] _ (show collectFiles exScan (exPatterns [""] []) [] =
    some (["/.git/refs/heads/fix.md", "/a/c.md", "/a/d.rs", "/a/old/e.md", "/b.md", "/main.rs"].map String.toList)
      from by decide +kernel) "/main.rs".toList (by decide +kernel)
  simp only [exPatterns, List.map_cons, List.map_nil, List.mem_singleton] at hl
  subst hl
  match p, e with
  | [], e => exact absurd e (by decide)
  | [a], e =>
    have e : "main.rs".toList = a := List.tail_eq_of_cons_eq e
    subst e
    exact absurd hg (by decide +kernel)
  | a :: b :: p, e =>
    have e : "main.rs".toList = joinWith ['/'] (a :: b :: p) := List.tail_eq_of_cons_eq e
    have : '/' ∈ "main.rs".toList := by
      rw [e, joinWith]
      simp
    exact absurd this (by decide)

example : collectFiles exScan (exPatterns ["*.md"] ["old"]) ["p".toList] =
    some (["/p/.git/refs/heads/fix.md", "/p/a/c.md", "/p/b.md", "/p/draft.md"].map String.toList) := by decide +kernel

example : collectFiles exScan (exPatterns ["a/**", "*.rs"] ["*.md"]) [] =
    some (["/a/d.rs", "/main.rs"].map String.toList) := by decide +kernel

example : collectFiles exScan (exPatterns ["# notes", "*.md ", ""] ["old\t", ".git"]) [] =
    some (["/a/c.md", "/b.md", "/draft.md"].map String.toList) := by decide +kernel

/-! ### C94: `git_aware` -/

/-- **C94.** A file that Git ignores can still be found: an `include` pattern that matches it comes
before the _.gitignore_ file. So `include = ["*.md"]` finds a _draft.md_ that _.gitignore_ lists. -/
theorem c94_ignored_false :
    ¬ ∀ (s : Scan) (config : Config) (base : Path) (es : List Entry) (files : List Name), PlainPatterns config →
      config.gitAware = true → s.tree base = some es → collectFiles s config base = some files →
      ∀ p, FileAt es p → GitIgnored s p → '/' :: joinWith ['/'] (base ++ p) ∉ files := by
  intro h
  refine h exScan (exPatterns ["*.md"] ["old"]) [] _
    (["/a/c.md", "/b.md", "/draft.md", "/.git/refs/heads/fix.md"].map String.toList |> sortPaths)
    ⟨fun l hl => ?_, fun l hl c hc => ?_⟩ rfl rfl (by decide +kernel) ["draft.md".toList]
    (.here (by simp)) (.inl (by decide)) (by decide +kernel)
  · simp only [exPatterns, List.map_cons, List.map_nil, List.mem_singleton] at hl
    subst hl
    exact ⟨by decide, by decide, 'd', by decide, by decide⟩
  · simp only [exPatterns, List.map_cons, List.map_nil, List.mem_singleton] at hl
    subst hl
    revert hc
    decide +revert

/-- **C94.** The directory _.git_ is searched like any other: a branch whose name ends in `.md` is a
file below _.git/refs/heads_, and `include = ["*.md"]` finds it. -/
theorem c94_git_dir_false :
    ¬ ∀ (s : Scan) (config : Config) (base : Path) (es : List Entry) (files : List Name), PlainPatterns config →
      config.gitAware = true → s.tree base = some es → collectFiles s config base = some files →
      ∀ p, FileAt es p → InGitDir p → '/' :: joinWith ['/'] (base ++ p) ∉ files := by
  intro h
  refine h exScan (exPatterns ["*.md"] []) [] _
    (["/a/c.md", "/a/old/e.md", "/b.md", "/draft.md", "/.git/refs/heads/fix.md"].map String.toList |> sortPaths)
    ⟨fun l hl => ?_, fun l hl c hc => ?_⟩ rfl rfl (by decide +kernel)
    [".git".toList, "refs".toList, "heads".toList, "fix.md".toList]
    (.deep (sub := [.dir "refs".toList [.dir "heads".toList [.file "fix.md".toList]]]) (by simp)
      (.deep (sub := [.dir "heads".toList [.file "fix.md".toList]]) (by simp)
        (.deep (sub := [.file "fix.md".toList]) (by simp) (.here (by simp)))))
    ⟨[".git".toList], _, rfl, by simp, by simp⟩ (by decide +kernel)
  · simp only [exPatterns, List.map_cons, List.map_nil, List.mem_singleton] at hl
    subst hl
    exact ⟨by decide, by decide, 'd', by decide, by decide⟩
  · cases hl

/-- **C94.** What holds: with `git_aware` nothing is found in a directory that Git ignores, unless an
`include` pattern matches the directory itself or an _.ignore_ file says something else about it; and
nothing is found in a directory that an `exclude` pattern matches, _.git_ included. -/
theorem c94_dirs_partial (s : Scan) (config : Config) (base : Path) (es : List Entry) (files : List Name)
    (hp : PlainPatterns config) (hok : ∀ l ∈ config.includes ++ config.excludes, s.globOk l = true)
    (ht : s.tree base = some es) (htree : Tree es) (h : collectFiles s config base = some files)
    (p q r : Path) (hf : FileAt es p) (e : p = q ++ r) (hq : q ≠ []) (hr : r ≠ [])
    (hout : (config.gitAware = true ∧ s.gitIgnore q true = .ignore ∧ s.dotIgnore q true = .undecided ∧
        ∀ l ∈ config.includes, s.glob l q true = false) ∨
      ∃ l ∈ config.excludes, s.glob l q true = true) :
    '/' :: joinWith ['/'] (base ++ p) ∉ files := by
  intro hm
  obtain ⟨p', hf', hs, e'⟩ := ((c93_files_partial s config base es files hp hok ht h).2 _).mp hm
  have := name_inj (fileAt_ne hf) (fileAt_ne hf') (fileAt_slash hf htree) (fileAt_slash hf' htree) (List.tail_eq_of_cons_eq e')
  subst this
  have hen := hs.2.2 q r e hq hr
  rcases hout with ⟨h1, h2, h3, h4⟩ | ⟨l, hl, h1⟩
  · rcases hen.2 with ⟨l, hl, h5⟩ | h5
    · rw [h4 l hl] at h5
      cases h5
    · exact h5 (.inr ⟨h3, h1, h2⟩)
  · have := hen.1 l hl
    rw [h1] at this
    cases this

/-- **C94.** Without `git_aware` the rules of Git do not matter, for any patterns. -/
theorem c94_off (s : Scan) (config : Config) (base : Path) (git : Path → Bool → Verdict) (h : config.gitAware = false) :
    collectFiles { s with gitIgnore := git } config base = collectFiles s config base := by
  have e : ∀ rules, entryVerdict { s with gitIgnore := git } config.gitAware rules = entryVerdict s config.gitAware rules := by
    intro rules
    funext p d
    simp [entryVerdict, h]
  unfold collectFiles
  simp only [e]

/-- **C94.** With `git_aware` no file is found that is not found without it. -/
theorem c94_fewer_partial (s : Scan) (config : Config) (base : Path) (es : List Entry) (aware all : List Name)
    (hp : PlainPatterns config) (hok : ∀ l ∈ config.includes ++ config.excludes, s.globOk l = true)
    (ht : s.tree base = some es)
    (h1 : collectFiles s { config with gitAware := true } base = some aware)
    (h2 : collectFiles s { config with gitAware := false } base = some all) : ∀ n ∈ aware, n ∈ all := by
  intro n hn
  obtain ⟨p, hf, hs, e⟩ := ((c93_files_partial s { config with gitAware := true } base es aware ⟨hp.includes, hp.excludes⟩ hok ht h1).2 n).mp hn
  refine ((c93_files_partial s { config with gitAware := false } base es all ⟨hp.includes, hp.excludes⟩ hok ht h2).2 n).mpr
    ⟨p, hf, ⟨hs.1, hs.2.1, fun q r e hq hr => ?_⟩, e⟩
  have hen := hs.2.2 q r e hq hr
  refine ⟨hen.1, hen.2.imp id fun h hr => h ?_⟩
  rcases hr with hr | ⟨_, hr, _⟩
  · exact .inl hr
  · cases hr

example : collectFiles exScan { exPatterns ["*.md"] ["old", ".git"] with gitAware := false } [] =
    some (["/a/c.md", "/b.md", "/build/x.md", "/draft.md"].map String.toList) := by decide +kernel

example : collectFiles exScan (exPatterns ["*.md"] ["old", ".git"]) [] =
    some (["/a/c.md", "/b.md", "/draft.md"].map String.toList) := by decide +kernel

end Hongdown.Props
