import Verif.Props.Cli
import Verif.Props.Collect

/-!
# C111: what `hongdown --write` and `hongdown --check` do to a whole project

README.md: with `include` patterns in the configuration `hongdown` formats the files of the project that they select.
-/

namespace Hongdown.Props
open Model Spec

/-- `hongdown` without files as arguments and without standard input in a project: the settings are usable, the patterns of the
configuration are ordinary ones, and all directories to be searched can be read. -/
structure ProjectRun (w : World) (scan : Scan) (args : Args) (o : Options) (config : Config) (dir : Path) (es : List Entry) : Prop where
  ready : Ready w args o
  fromConfig : (loadConfig w.places w.cwd args.config).1 = config
  fromDir : (loadConfig w.places w.cwd args.config).2.1 = dir
  noFiles : args.files = []
  noStdin : args.stdin = false
  collect : w.collect = collectFiles scan
  includes : config.includes ≠ []
  plain : PlainPatterns config
  globs : ∀ l ∈ config.includes ++ config.excludes, scan.globOk l = true
  top : scan.tree dir = some es
  tree : Tree es
  readable : ∀ p, UnreadableAt es p → ¬ Entered scan config p

/-- The file name stands for a file of the project that the patterns select. -/
def InProject (scan : Scan) (config : Config) (dir : Path) (es : List Entry) (n : Name) : Prop :=
  ∃ p, FileAt es p ∧ Selected scan config p ∧ n = '/' :: joinWith ['/'] (dir ++ p)

theorem ProjectRun.found {w : World} {scan : Scan} {args : Args} {o : Options} {config : Config} {dir : Path} {es : List Entry}
    (h : ProjectRun w scan args o config dir es) :
    ∃ files, collectFiles scan config dir = some files ∧ Selects w args files ∧ files.Nodup ∧
      ∀ n, n ∈ files ↔ InProject scan config dir es n := by
  cases hc : collectFiles scan config dir with
  | none =>
    obtain ⟨_, h1 | h1 | ⟨es', p, h1, h2, h3, _⟩⟩ := (c93_error_partial scan config dir h.plain).mp hc
    · obtain ⟨l, hl, he⟩ := h1
      rw [h.globs l hl] at he; cases he
    · rw [h.top] at h1; cases h1
    · rw [h.top] at h1; cases h1
      exact absurd h3 (h.readable p h2)
  | some files =>
    refine ⟨files, rfl, ⟨h.noStdin, by simp [h.noFiles], .inr ⟨h.noFiles, ?_, ?_⟩⟩,
      c93_once_partial scan config dir es files h.plain h.globs h.top h.tree hc,
      (c93_files_partial scan config dir es files h.plain h.globs h.top hc).2⟩
    · rw [h.fromConfig]; exact h.includes
    · rw [h.fromConfig, h.fromDir, h.collect, hc]

theorem written_fine {fmt : Fmt} {faults : Faults} {disk : Disk} {n : Name} (h1 : faults.denied n = false) (h2 : faults.failAt n = none) :
    written fmt faults disk n = (disk n).map fun s => (fmt s).1 := by
  rw [written, outcome]
  cases hd : disk n with
  | none => rfl
  | some s =>
    by_cases he : (fmt s).1 = s
    · simp [he, hd]
    · simp [he, h1, h2, formatOf, hd]

/-- The workers get enough turns for the files of the project. -/
def EnoughTurns (w : World) (scan : Scan) (o : Options) (config : Config) (dir : Path) : Prop :=
  ∀ files, collectFiles scan config dir = some files → ∀ i n, files[i]? = some n →
    (formatOf (w.fmt o) w.disk n).length + 3 ≤ w.schedule.count i

/-- **C111 (partial).** Full statement: for all patterns, see `c93_blank_false`. After `hongdown --write` the selected files of the
project are formatted and all other files are as before, if writing works. -/
theorem c111_write_partial (w : World) (scan : Scan) (args : Args) (o : Options) (config : Config) (dir : Path) (es : List Entry)
    (h : ProjectRun w scan args o config dir es) (hw : args.write = true) (hc : args.check = false)
    (hok : ∀ n, w.faults.denied n = false ∧ w.faults.failAt n = none) (ht : EnoughTurns w scan o config dir) :
    (∀ n, InProject scan config dir es n → (runMain w args).disk n = (w.disk n).map fun s => (w.fmt o s).1) ∧
    (∀ n, ¬ InProject scan config dir es n → (runMain w args).disk n = w.disk n) := by
  obtain ⟨files, hf, hsel, hn, hmem⟩ := h.found
  have hfin := c35_finishes (w.fmt o) w.faults files true false w.disk w.schedule (.inr hn) (ht files hf)
  obtain ⟨h1, h2⟩ := c38_write_files w args o files h.ready hsel hw hc hn hfin
  refine ⟨fun n hp => ?_, fun n hp => h2 n (fun hm => hp ((hmem n).mp hm))⟩
  rw [h1 n ((hmem n).mpr hp), written_fine (hok n).1 (hok n).2]

/-- **C111 (partial).** `hongdown --check` changes no file, and it succeeds exactly if every selected file of the project can be
read and is formatted. -/
theorem c111_check_partial (w : World) (scan : Scan) (args : Args) (o : Options) (config : Config) (dir : Path) (es : List Entry)
    (h : ProjectRun w scan args o config dir es) (hc : args.check = true) (ht : EnoughTurns w scan o config dir) :
    (runMain w args).disk = w.disk ∧
    ((runMain w args).exit = .success ↔
      ∀ n, InProject scan config dir es n → ∃ s, w.disk n = some s ∧ (w.fmt o s).1 = s) := by
  obtain ⟨files, hf, hsel, hn, hmem⟩ := h.found
  have hfin := c35_finishes (w.fmt o) w.faults files args.write true w.disk w.schedule (.inl rfl) (ht files hf)
  obtain ⟨h1, h2⟩ := c38_check_files w args o files h.ready hsel hc hfin
  refine ⟨h1, h2.trans ⟨fun k n hp => k n ((hmem n).mpr hp), fun k n hm => k n ((hmem n).mp hm)⟩⟩

/-- What the arguments name: a file, or a Markdown file in a directory. -/
def Named (isDir : Name → Bool) (walk : Name → List Name) (paths : List Name) (n : Name) : Prop :=
  (n ∈ paths ∧ isDir n = false) ∨ ∃ d ∈ paths, isDir d = true ∧ n ∈ walk d ∧ IsMarkdown n

theorem mem_expandPaths {isDir : Name → Bool} {walk : Name → List Name} {paths : List Name} {n : Name} :
    n ∈ expandPaths isDir walk paths ↔ Named isDir walk paths n := by
  rw [expandPaths, List.mem_flatten]
  constructor
  · rintro ⟨l, hl, hn⟩
    obtain ⟨d, hd, rfl⟩ := List.mem_map.mp hl
    cases he : isDir d with
    | false =>
      rw [he] at hn
      have : n = d := by simpa using hn
      exact .inl ⟨this ▸ hd, this ▸ he⟩
    | true =>
      rw [he, if_pos rfl, collectMdFiles, (sortPaths_perm _).mem_iff, List.mem_filter] at hn
      exact .inr ⟨d, hd, he, hn.1, (isMarkdown_iff n).mp hn.2⟩
  · rintro (⟨h1, h2⟩ | ⟨d, h1, h2, h3, h4⟩)
    · exact ⟨_, List.mem_map.mpr ⟨n, h1, rfl⟩, by simp [h2]⟩
    · refine ⟨_, List.mem_map.mpr ⟨d, h1, rfl⟩, ?_⟩
      rw [h2, if_pos rfl, collectMdFiles, (sortPaths_perm _).mem_iff, List.mem_filter]
      exact ⟨h3, (isMarkdown_iff n).mpr h4⟩

/-- **C111 (partial).** Full statement: also if a file is named twice, see `c68_once_false` and `c68_race_false`. The same with files and directories as
arguments: the files named and the Markdown files in the directories named are formatted, all others are as before. -/
theorem c111_arguments_partial (w : World) (args : Args) (o : Options) (h : Ready w args o) (hs : args.stdin = false)
    (hd : ['-'] ∉ args.files) (hne : args.files ≠ []) (hw : args.write = true) (hc : args.check = false)
    (hok : ∀ n, w.faults.denied n = false ∧ w.faults.failAt n = none)
    (hn : (expandPaths w.isDir w.walk args.files).Nodup)
    (ht : ∀ i n, (expandPaths w.isDir w.walk args.files)[i]? = some n → (formatOf (w.fmt o) w.disk n).length + 3 ≤ w.schedule.count i) :
    (∀ n, Named w.isDir w.walk args.files n → (runMain w args).disk n = (w.disk n).map fun s => (w.fmt o s).1) ∧
    (∀ n, ¬ Named w.isDir w.walk args.files n → (runMain w args).disk n = w.disk n) := by
  have hfin := c35_finishes (w.fmt o) w.faults _ true false w.disk w.schedule (.inr hn) ht
  obtain ⟨h1, h2⟩ := c38_write_files w args o _ h ⟨hs, hd, .inl ⟨hne, rfl⟩⟩ hw hc hn hfin
  refine ⟨fun n hp => ?_, fun n hp => h2 n (fun hm => hp (mem_expandPaths.mp hm))⟩
  rw [h1 n (mem_expandPaths.mpr hp), written_fine (hok n).1 (hok n).2]

/-- A project with the configuration `include = ["*.md"]` and `exclude = ["old", ".git"]`. -/
def exProject : World :=
  { exWorld with
    places := exPlaces none none none (some [("include".toList, .arr [.str "*.md".toList]),
      ("exclude".toList, .arr [.str "old".toList, .str ".git".toList])])
    disk := fun n =>
      if n = "/p/b.md".toList then some "b c ".toList else if n = "/p/a/c.md".toList then some "c\n".toList
      else if n = "/p/main.rs".toList then some "main ".toList else some []
    collect := collectFiles exScan
    schedule := exTurns 3 9 }

example : collectFiles exScan (exPatterns ["*.md"] ["old", ".git"]) ["p".toList] =
    some (["/p/a/c.md", "/p/b.md", "/p/draft.md"].map String.toList) := by decide +kernel

example : (runMain exProject { write := true }).disk "/p/b.md".toList = some "b c\n".toList := by decide +kernel
example : (runMain exProject { write := true }).disk "/p/main.rs".toList = some "main ".toList := by decide +kernel
example : (runMain exProject { check := true }).disk "/p/b.md".toList = some "b c ".toList := by decide +kernel
example : (runMain exProject { check := true }).exit = .failure := by decide +kernel

/-- The theorems apply to this project. -/
theorem exProject_run (args : Args) (hf : args.files = []) (hs : args.stdin = false) (hc : args.config = none) (hl : args.lineWidth = none) :
    ∃ o config es, ProjectRun exProject exScan args o config ["p".toList] es := by
  have h1 : (loadConfig exProject.places exProject.cwd none).1.includes = ["*.md".toList] := by decide +kernel
  have h2 : (loadConfig exProject.places exProject.cwd none).1.excludes = ["old".toList, ".git".toList] := by decide +kernel
  have h3 : ((toOptions (loadConfig exProject.places exProject.cwd none).1 none).map (validateDashSettings ·.punct)) = some none := by
    decide +kernel
  cases ho : toOptions (loadConfig exProject.places exProject.cwd none).1 none with
  | none => rw [ho] at h3; cases h3
  | some o =>
    rw [ho] at h3
    refine ⟨o, (loadConfig exProject.places exProject.cwd none).1, _, ⟨?_, ?_, ?_⟩, by rw [hc], by rw [hc]; decide +kernel, hf, hs, rfl, ?_,
      ⟨?_, ?_⟩, fun _ _ => rfl, rfl, ?_, ?_⟩
    · rw [hc, hl, ho]
    · rw [hc]
      have : (loadConfig exProject.places exProject.cwd none).1.codeBlock.formatters = [] := by decide +kernel
      rw [this]; simp
    · exact Option.some.inj h3
    · rw [h1]; simp
    · rw [h1]
      intro l hl
      rw [List.mem_singleton] at hl
      subst hl
      exact ⟨by decide, by decide, 'd', by decide, by decide⟩
    · rw [h2]
      intro l hl c hc
      simp only [List.mem_cons, List.not_mem_nil, or_false] at hl
      rcases hl with rfl | rfl
      · have : c = 'd' := by simpa using hc.symm
        subst this; decide
      · have : c = 't' := by simpa using hc.symm
        subst this; decide
    · refine .mk (by decide +kernel) (by decide +kernel) fun n sub hm => ?_
      simp only [List.mem_cons, List.not_mem_nil, or_false, reduceCtorEq, false_or, Entry.dir.injEq] at hm
      rcases hm with ⟨rfl, rfl⟩ | ⟨rfl, rfl⟩ | ⟨rfl, rfl⟩
      · exact .mk (by decide +kernel) (by decide +kernel) fun n sub hm => by simp at hm
      · refine .mk (by decide +kernel) (by decide +kernel) fun n sub hm => ?_
        simp only [List.mem_cons, List.not_mem_nil, or_false, Entry.dir.injEq] at hm
        obtain ⟨rfl, rfl⟩ := hm
        refine .mk (by decide +kernel) (by decide +kernel) fun n sub hm => ?_
        simp only [List.mem_cons, List.not_mem_nil, or_false, Entry.dir.injEq] at hm
        obtain ⟨rfl, rfl⟩ := hm
        exact .mk (by decide +kernel) (by decide +kernel) fun n sub hm => by simp at hm
      · refine .mk (by decide +kernel) (by decide +kernel) fun n sub hm => ?_
        simp only [List.mem_cons, List.not_mem_nil, or_false, reduceCtorEq, false_or, Entry.dir.injEq] at hm
        obtain ⟨rfl, rfl⟩ := hm
        exact .mk (by decide +kernel) (by decide +kernel) fun n sub hm => by simp at hm
    · intro p hu
      refine absurd hu ?_
      have none_file : ∀ n p, ¬ UnreadableAt [.file n] p := by
        intro n p hu
        cases hu with
        | here hm => simp at hm
        | deep hm hu => simp at hm
      have none_dir : ∀ n sub p, (∀ q, ¬ UnreadableAt sub q) → ¬ UnreadableAt [.dir n sub] p := by
        intro n sub p hs hu
        cases hu with
        | here hm => simp at hm
        | deep hm hu =>
          simp only [List.mem_singleton, Entry.dir.injEq] at hm
          obtain ⟨rfl, rfl⟩ := hm
          exact hs _ hu
      intro hu
      cases hu with
      | here hm => simp at hm
      | deep hm hu =>
        simp only [List.mem_cons, List.not_mem_nil, or_false, reduceCtorEq, false_or, Entry.dir.injEq] at hm
        rcases hm with ⟨rfl, rfl⟩ | ⟨rfl, rfl⟩ | ⟨rfl, rfl⟩
        · exact none_file _ _ hu
        · exact none_dir _ _ _ (fun _ => none_dir _ _ _ fun _ => none_file _ _) hu
        · cases hu with
          | here hm => simp at hm
          | deep hm hu =>
            simp only [List.mem_cons, List.not_mem_nil, or_false, reduceCtorEq, false_or, Entry.dir.injEq] at hm
            obtain ⟨rfl, rfl⟩ := hm
            exact none_file _ _ hu

end Hongdown.Props
