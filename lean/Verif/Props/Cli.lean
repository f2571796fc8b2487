import Verif.Lemmas.Cli
import Verif.Props.Config

/-!
# The command line program: C35, C36, C37, C38, C39, C65, C68
-/

namespace Hongdown.Props
open Model Spec

/-- A formatter for the examples: white space at the end becomes one newline. -/
def exFmt : Fmt := fun s => (trimEnd s ++ ['\n'], [])

/-- Nothing goes wrong. -/
def exFine : Faults := ⟨fun _ => false, fun _ => none⟩

/-- Two files, the second not formatted. -/
def exDisk : Disk := fun n =>
  if n = ['a'] then some "a\n".toList else if n = ['b'] then some "b c ".toList else none

/-- The workers in turn. -/
def exTurns (k n : Nat) : List Nat := (List.replicate n (List.range k)).flatten

/-- A world without configuration files, with `x` on standard input. -/
def exWorld : World where
  places := exPlaces none none none none
  cwd := ["p".toList]
  disk := exDisk
  isDir := fun _ => false
  walk := fun _ => []
  collect := fun _ _ => none
  stdin := some "x".toList
  faults := exFine
  fmt := fun _ => exFmt
  diff := fun _ _ => []
  schedule := exTurns 2 9

/-! ### C35: check mode -/

/-- **C35.** With `--check` no file changes, at any time and for any order of the workers. -/
theorem c35_disk (fmt : Fmt) (faults : Faults) (files : List Name) (write : Bool) (disk : Disk)
    (schedule : List Nat) :
    ((Par.init files disk).run fmt faults files write true schedule).disk = disk := by
  have h := (ParInv.init fmt faults write true disk files).run fmt faults write true disk
    (by intro _ h; cases h) schedule
  revert h
  generalize (Par.init files disk).run fmt faults files write true schedule = s
  intro h
  funext n
  by_cases hn : n ∈ files
  · obtain ⟨i, hi, e⟩ := List.mem_iff_getElem.mp hn
    have hi' : i < s.phases.length := by rw [h.len]; exact hi
    have hz : (files[i], s.phases[i]) ∈ files.zip s.phases := by
      rw [List.mem_iff_getElem]
      exact ⟨i, by rw [List.length_zip]; omega, by simp⟩
    have ht := h.task _ hz
    simp only [e] at ht
    cases hp : s.phases[i] with
    | start => rw [hp] at ht; exact ht
    | loaded input => rw [hp] at ht; exact ht.2
    | writing w rest => rw [hp] at ht; exact absurd ht.2.1 (by simp)
    | done => rw [hp] at ht; simpa [TaskOk, finalDisk] using ht
  · exact h.other n hn

/-- **C35.** When all workers are done, whatever their order, the exit code is success exactly if
each file could be read and equals its formatted form; the messages are those of the files,
in some order, and nothing is printed. -/
theorem c35_check (fmt : Fmt) (faults : Faults) (files : List Name) (write : Bool) (disk : Disk)
    (schedule : List Nat) (s : Par)
    (hs : s = (Par.init files disk).run fmt faults files write true schedule) (hf : s.finished = true) :
    (s.exit true = .success ↔ ∀ n ∈ files, ∃ input, disk n = some input ∧ (fmt input).1 = input) ∧
    (s.exit true = .success ∨ s.exit true = .failure) ∧
    s.stderr.Perm (files.flatMap (checkMessages fmt disk)) ∧ s.stdout = [] := by
  have h := (ParInv.init fmt faults write true disk files).run fmt faults write true disk
    (by intro _ h; cases h) schedule
  rw [← hs] at h
  have hz := zip_done h.len hf
  refine ⟨?_, ?_, ?_, ?_⟩
  · rw [Par.exit, h.err, h.unf, hz]
    simp only [List.any_map, Bool.true_and, Bool.not_not]
    constructor
    · intro hx n hn
      split at hx
      · cases hx
      · rename_i hx'
        simp only [Bool.or_eq_true, not_or, List.any_eq_true, not_exists, not_and, Function.comp_apply] at hx'
        have h1 := hx'.1 n hn
        have h2 := hx'.2 n hn
        simp only [errOf, unfOf, outcome] at h1 h2
        cases hd : disk n with
        | none => rw [hd] at h1; simp at h1
        | some input =>
          rw [hd] at h2
          exact ⟨input, rfl, by simpa using h2⟩
    · intro hx
      rw [if_neg]
      simp only [Bool.or_eq_true, not_or, List.any_eq_true, not_exists, not_and, Function.comp_apply]
      constructor
      · intro n hn
        obtain ⟨input, hd, hi⟩ := hx n hn
        simp [errOf, outcome, hd, hi]
      · intro n hn
        obtain ⟨input, hd, hi⟩ := hx n hn
        simp [unfOf, hd, hi]
  · rw [Par.exit]
    split <;> simp
  · have := h.msg
    rw [hz, List.flatMap_map] at this
    exact this
  · have := h.out
    rw [hz, List.flatMap_map] at this
    have e : files.flatMap (fun n => outOf fmt faults write true disk (n, .done)) = [] := by
      rw [List.flatMap_eq_nil_iff]
      intro n _
      simp [outOf]
    rw [e] at this
    exact this.eq_nil

/-- **C35, C36.** The workers do finish: it is enough that each of them takes three steps more than
its file has characters when formatted. -/
theorem c35_finishes (fmt : Fmt) (faults : Faults) (files : List Name) (write check : Bool) (disk : Disk)
    (schedule : List Nat) (hn : check = true ∨ files.Nodup)
    (hs : ∀ i n, files[i]? = some n → (formatOf fmt disk n).length + 3 ≤ schedule.count i) :
    ((Par.init files disk).run fmt faults files write check schedule).finished = true := by
  have hn' : write = true → check = false → files.Nodup := by
    intro _ hc
    rcases hn with h | h
    · rw [hc] at h; cases h
    · exact h
  have h0 := ParInv.init fmt faults write check disk files
  have h := h0.run fmt faults write check disk hn' schedule
  rw [Par.finished, List.all_eq_true]
  intro ph hph
  obtain ⟨i, hi, e⟩ := List.mem_iff_getElem.mp hph
  have hi' : i < files.length := by rw [← h.len]; exact hi
  obtain ⟨q, hq, hle⟩ := run_steps fmt faults write check disk hn' schedule h0 i files[i] .start
    (List.getElem?_eq_getElem hi') (by simp [Par.init, hi'])
  rw [List.getElem?_eq_getElem hi] at hq
  have e2 : ph = q := by
    rw [e] at hq
    exact Option.some.inj hq
  subst e2
  have := hs i files[i] (List.getElem?_eq_getElem hi')
  have hz : stepsLeft fmt disk files[i] ph = 0 := by
    simp only [stepsLeft] at hle ⊢
    omega
  cases ph with
  | done => simp
  | start => simp [stepsLeft] at hz
  | loaded _ => simp [stepsLeft] at hz
  | writing _ _ => simp [stepsLeft] at hz

example : ((Par.init [['a'], ['b']] exDisk).run exFmt exFine [['a'], ['b']] false true (exTurns 2 4)).finished = true ∧
    ((Par.init [['a'], ['b']] exDisk).run exFmt exFine [['a'], ['b']] false true (exTurns 2 4)).exit true = .failure ∧
    ((Par.init [['a'], ['b']] exDisk).run exFmt exFine [['a'], ['b']] false true (exTurns 2 4)).stderr =
      [.notFormatted ['b']] ∧
    ((Par.init [['a'], ['a']] exDisk).run exFmt exFine [['a'], ['a']] false true (exTurns 2 4)).exit true = .success := by
  decide +kernel

/-! ### C36: write mode -/

/-- **C36.** With `--write` and different files, when all workers are done, whatever their order:
each file has the contents it should have and no other file has changed; the names of the
files written are printed, in some order; the exit code is failure exactly if some file could
not be read or, if it needed writing, not be written; and the messages are those of the
files. -/
theorem c36_write (fmt : Fmt) (faults : Faults) (files : List Name) (disk : Disk) (schedule : List Nat) (s : Par)
    (hn : files.Nodup) (hs : s = (Par.init files disk).run fmt faults files true false schedule)
    (hf : s.finished = true) :
    (∀ n ∈ files, s.disk n = written fmt faults disk n) ∧
    (∀ n, n ∉ files → s.disk n = disk n) ∧
    s.stdout.Perm (files.filter fun n => outcome fmt faults disk n = .differs) ∧
    (s.exit false = .failure ↔ ∃ n ∈ files, outcome fmt faults disk n = .unreadable ∨
      outcome fmt faults disk n = .denied ∨ ∃ k, outcome fmt faults disk n = .cut k) ∧
    s.stderr.Perm (files.flatMap (writeMessages fmt faults disk)) := by
  have h := (ParInv.init fmt faults true false disk files).run fmt faults true false disk
    (fun _ _ => hn) schedule
  rw [← hs] at h
  have hz := zip_done h.len hf
  refine ⟨?_, h.other, ?_, ?_, ?_⟩
  · intro n hmem
    have := h.task (n, .done) (by rw [hz]; simp [hmem])
    simpa [TaskOk, finalDisk] using this
  · have := h.out
    rw [hz, List.flatMap_map] at this
    have e : files.flatMap (fun n => outOf fmt faults true false disk (n, .done)) =
        files.filter fun n => outcome fmt faults disk n = .differs := by
      clear this hz h hf hs hn
      induction files with
      | nil => rfl
      | cons f fs ih =>
        rw [List.flatMap_cons, List.filter_cons, ih]
        simp only [outOf]
        by_cases ho : outcome fmt faults disk f = .differs <;> simp [ho]
    rw [e] at this
    exact this
  · rw [Par.exit, h.err, hz]
    simp only [List.any_map, Bool.false_and, Bool.or_false]
    have key : ∀ n, errOf fmt faults true false disk (n, .done) = true ↔ outcome fmt faults disk n = .unreadable ∨
      outcome fmt faults disk n = .denied ∨ ∃ k, outcome fmt faults disk n = .cut k := by
      intro n
      simp only [errOf]
      cases outcome fmt faults disk n <;> simp
    constructor
    · intro hx
      split at hx
      · rename_i hx'
        rw [List.any_eq_true] at hx'
        obtain ⟨n, hmem, h1⟩ := hx'
        exact ⟨n, hmem, (key n).mp h1⟩
      · cases hx
    · rintro ⟨n, hmem, h1⟩
      rw [if_pos]
      rw [List.any_eq_true]
      exact ⟨n, hmem, (key n).mpr h1⟩
  · have := h.msg
    rw [hz, List.flatMap_map] at this
    exact this

/-- **C36.** If formatting the files a second time changes nothing, `--check` succeeds after a successful `--write`. -/
theorem c36_then_check (fmt : Fmt) (faults : Faults) (files : List Name) (disk : Disk) (s t : Par)
    (schedule schedule' : List Nat) (hidem : ∀ n ∈ files, ∀ x, disk n = some x → (fmt (fmt x).1).1 = (fmt x).1) (hn : files.Nodup)
    (hs : s = (Par.init files disk).run fmt faults files true false schedule) (hf : s.finished = true)
    (hx : s.exit false = .success)
    (ht : t = (Par.init files s.disk).run fmt faults files false true schedule') (hf' : t.finished = true) :
    t.exit true = .success := by
  obtain ⟨h1, _, _, h4, _⟩ := c36_write fmt faults files disk schedule s hn hs hf
  rw [(c35_check fmt faults files false s.disk schedule' t ht hf').1]
  have hgood : ∀ n ∈ files, outcome fmt faults disk n = .formatted ∨ outcome fmt faults disk n = .differs := by
    intro n hmem
    have : ¬ (∃ n ∈ files, outcome fmt faults disk n = .unreadable ∨
      outcome fmt faults disk n = .denied ∨ ∃ k, outcome fmt faults disk n = .cut k) := by
      rw [← h4, hx]
      simp
    cases ho : outcome fmt faults disk n with
    | formatted => exact .inl rfl
    | differs => exact .inr rfl
    | unreadable => exact absurd ⟨n, hmem, .inl ho⟩ this
    | denied => exact absurd ⟨n, hmem, .inr (.inl ho)⟩ this
    | cut k => exact absurd ⟨n, hmem, .inr (.inr ⟨k, ho⟩)⟩ this
  intro n hmem
  rw [h1 n hmem, written]
  rcases hgood n hmem with ho | ho
  · rw [ho]
    simp only [outcome] at ho
    cases hd : disk n with
    | none => rw [hd] at ho; cases ho
    | some input =>
      rw [hd] at ho
      refine ⟨input, rfl, ?_⟩
      revert ho
      simp only []
      repeat' split
      all_goals first
        | (intro _; assumption)
        | (intro ho; cases ho)
  · rw [ho]
    refine ⟨formatOf fmt disk n, rfl, ?_⟩
    rw [formatOf]
    cases hd : disk n with
    | none => simp [outcome, hd] at ho
    | some input => exact hidem n hmem input hd

example : ((Par.init [['a'], ['b']] exDisk).run exFmt exFine [['a'], ['b']] true false (exTurns 2 8)).disk ['b'] =
      some "b c\n".toList ∧
    ((Par.init [['a'], ['b']] exDisk).run exFmt exFine [['a'], ['b']] true false (exTurns 2 8)).stdout = [['b']] ∧
    ((Par.init [['a'], ['b']] exDisk).run exFmt exFine [['a'], ['b']] true false (exTurns 2 8)).finished = true := by
  decide +kernel

/-- Writing to `b` stops early. -/
example : ((Par.init [['a'], ['b']] exDisk).run exFmt ⟨fun _ => false, fun _ => some 2⟩ [['a'], ['b']] true false
      (exTurns 2 8)).disk ['b'] = some "b ".toList ∧
    ((Par.init [['a'], ['b']] exDisk).run exFmt ⟨fun _ => false, fun _ => some 2⟩ [['a'], ['b']] true false
      (exTurns 2 8)).exit false = .failure := by
  decide +kernel

/-- **C36.** A failing `--write` may lose text: a file is cut before it is written. -/
theorem c36_safe_false : ¬ ∀ (fmt : Fmt) (faults : Faults) (files : List Name) (disk : Disk) (schedule : List Nat),
    (∀ x, visible (fmt x).1 = visible x) → files.Nodup →
    ((Par.init files disk).run fmt faults files true false schedule).finished = true →
    ∀ n s, disk n = some s → ∃ t,
      ((Par.init files disk).run fmt faults files true false schedule).disk n = some t ∧ visible t = visible s := by
  intro h
  obtain ⟨t, h1, h2⟩ := h exFmt ⟨fun _ => false, fun _ => some 1⟩ [['b']] exDisk (exTurns 1 8) (by
    intro x
    show visible (trimEnd x ++ ['\n']) = visible x
    rw [visible_append, visible_trimEnd]
    show visible x ++ [] = visible x
    simp) (by simp) (by decide +kernel) ['b'] "b c ".toList (by decide +kernel)
  have e : ((Par.init [['b']] exDisk).run exFmt ⟨fun _ => false, fun _ => some 1⟩ [['b']] true false
    (exTurns 1 8)).disk ['b'] = some "b".toList := by decide +kernel
  rw [e] at h1
  cases h1
  revert h2
  decide +kernel

/-! ### C68: overlapping arguments -/

/-- **C68.** The same file twice among the arguments may lose text in `--write`, even if every
write succeeds and the formatter keeps all visible text: the second worker reads what the
first has written so far. -/
theorem c68_race_false : ¬ ∀ (fmt : Fmt) (files : List Name) (disk : Disk) (schedule : List Nat),
    (∀ x, visible (fmt x).1 = visible x) →
    ((Par.init files disk).run fmt exFine files true false schedule).finished = true →
    ∀ n s, disk n = some s → ∃ t,
      ((Par.init files disk).run fmt exFine files true false schedule).disk n = some t ∧ visible t = visible s := by
  intro h
  obtain ⟨t, h1, h2⟩ := h exFmt [['b'], ['b']] exDisk ([0, 0, 0, 1] ++ [0, 0, 0, 0] ++ [1, 1, 1, 1]) (by
    intro x
    show visible (trimEnd x ++ ['\n']) = visible x
    rw [visible_append, visible_trimEnd]
    show visible x ++ [] = visible x
    simp) (by decide +kernel) ['b'] "b c ".toList (by decide +kernel)
  have e : ((Par.init [['b'], ['b']] exDisk).run exFmt exFine [['b'], ['b']] true false
    ([0, 0, 0, 1] ++ [0, 0, 0, 0] ++ [1, 1, 1, 1])).disk ['b'] = some "b\n".toList := by decide +kernel
  rw [e] at h1
  cases h1
  revert h2
  decide +kernel

/-- **C68.** What is left may even have characters that neither the files nor the formatter have: a worker
that goes on writing after the other one has emptied the file leaves a gap of zeros. -/
theorem c68_zeros_false : ¬ ∀ (fmt : Fmt) (files : List Name) (disk : Disk) (schedule : List Nat),
    (∀ x, '\x00' ∉ x → '\x00' ∉ (fmt x).1) → (∀ n s, disk n = some s → '\x00' ∉ s) →
    ((Par.init files disk).run fmt exFine files true false schedule).finished = true →
    ∀ n t, ((Par.init files disk).run fmt exFine files true false schedule).disk n = some t → '\x00' ∉ t := by
  intro h
  have := h exFmt [['b'], ['b']] exDisk ([0, 0, 0, 1] ++ [0, 0, 1, 0] ++ [0, 1, 1, 1]) (by
    intro x hx
    show '\x00' ∉ trimEnd x ++ ['\n']
    rw [List.mem_append]
    rintro (h | h)
    · exact hx ((trimEnd_prefix x).subset h)
    · revert h; decide) (by
    intro n s hs hm
    rw [exDisk] at hs
    split at hs <;> (try split at hs) <;> cases hs <;> revert hm <;> decide) (by decide +kernel) ['b'] "b\n\x00\n".toList
      (by decide +kernel)
  exact this (by decide)

/-- **C68.** A directory and a file in it give the file twice. -/
theorem c68_once_false : ¬ ∀ (isDir : Name → Bool) (walk : Name → List Name) (paths : List Name),
    paths.Nodup → (∀ d, (walk d).Nodup) → (expandPaths isDir walk paths).Nodup := by
  intro h
  have := h (fun n => n = "docs".toList) (fun n => if n = "docs".toList then ["docs/a.md".toList] else [])
    ["docs".toList, "docs/a.md".toList] (by decide +kernel) (by
      intro d
      show (if d = "docs".toList then ["docs/a.md".toList] else []).Nodup
      split <;> simp)
  revert this
  decide +kernel

/-- **C68.** The files are different if the arguments are, and no file is below two of the
directories or also an argument. -/
theorem c68_once_partial (isDir : Name → Bool) (walk : Name → List Name) (paths : List Name)
    (hp : paths.Nodup) (hw : ∀ d ∈ paths, (walk d).Nodup)
    (h1 : ∀ d ∈ paths, isDir d = true → ∀ e ∈ paths, isDir e = true → d ≠ e → ∀ n ∈ walk d, n ∉ walk e)
    (h2 : ∀ d ∈ paths, isDir d = true → ∀ n ∈ paths, isDir n = false → n ∉ walk d) :
    (expandPaths isDir walk paths).Nodup := by
  induction paths with
  | nil => exact List.Pairwise.nil
  | cons p ps ih =>
    have hp' := List.nodup_cons.mp hp
    have ihn := ih hp'.2 (fun d hd => hw d (by simp [hd]))
      (fun d hd hdd e he hee hne => h1 d (by simp [hd]) hdd e (by simp [he]) hee hne)
      (fun d hd hdd n hn hnn => h2 d (by simp [hd]) hdd n (by simp [hn]) hnn)
    have hmem : ∀ {l : List Name} {n : Name}, n ∈ expandPaths isDir walk l →
        ∃ q ∈ l, (isDir q = true ∧ n ∈ walk q) ∨ (isDir q = false ∧ n = q) := by
      intro l n hn
      simp only [expandPaths, List.mem_flatten, List.mem_map] at hn
      obtain ⟨x, ⟨q, hq, rfl⟩, hx⟩ := hn
      refine ⟨q, hq, ?_⟩
      split at hx
      · rename_i hd
        have := (sortPaths_perm _).mem_iff.mp hx
        rw [List.mem_filter] at this
        exact .inl ⟨hd, this.1⟩
      · rename_i hd
        exact .inr ⟨by simpa using hd, by simpa using hx⟩
    show (List.flatten (List.map _ (p :: ps))).Nodup
    rw [List.map_cons, List.flatten_cons]
    refine List.nodup_append.mpr ⟨?_, ihn, ?_⟩
    · split
      · exact ((sortPaths_perm _).nodup_iff).mpr ((hw p (by simp)).filter _)
      · simp
    · intro a ha b hb hab
      subst hab
      obtain ⟨q, hq, hb'⟩ := hmem hb
      have hpq : p ≠ q := by rintro rfl; exact hp'.1 hq
      split at ha
      · rename_i hd
        have ha' := (sortPaths_perm _).mem_iff.mp ha
        rw [List.mem_filter] at ha'
        rcases hb' with ⟨h3, h4⟩ | ⟨h3, h4⟩
        · exact h1 p (by simp) hd q (by simp [hq]) h3 hpq a ha'.1 h4
        · subst h4
          exact h2 p (by simp) hd a (by simp [hq]) h3 ha'.1
      · rename_i hd
        have ha' : a = p := by simpa using ha
        subst ha'
        rcases hb' with ⟨h3, h4⟩ | ⟨h3, h4⟩
        · exact h2 q (by simp [hq]) h3 a (by simp) (by simpa using hd) h4
        · exact hpq h4

/-! ### C37: sequential modes -/

/-- **C37.** Standard output is the concatenation for the files before the first unreadable one,
the exit code is success exactly if all can be read, and the messages are the warnings of
these files and the error for the first unreadable one. -/
theorem c37_sequential (fmt : Fmt) (disk : Disk) (print : Name → List Char → List Char → List Char)
    (files : List Name) :
    (processSequential fmt disk print files).stdout =
      (readableOutputs disk (fun n s => print n s (fmt s).1) files).flatten ∧
    ((processSequential fmt disk print files).exit = .success ↔ ∀ n ∈ files, (disk n).isSome = true) ∧
    ((processSequential fmt disk print files).exit = .success ∨
      (processSequential fmt disk print files).exit = .failure) ∧
    (processSequential fmt disk print files).stderr =
      (files.takeWhile fun n => (disk n).isSome).flatMap (warningsOf fmt disk) ++
        ((files.find? fun n => (disk n).isNone).map Msg.readError).toList := by
  induction files with
  | nil => simp [processSequential, readableOutputs]
  | cons f fs ih =>
    rw [processSequential]
    cases hd : disk f with
    | none => simp [readableOutputs, hd]
    | some input =>
      obtain ⟨h1, h2, h3, h4⟩ := ih
      refine ⟨?_, ?_, h3, ?_⟩
      · simp only [h1, readableOutputs, List.takeWhile_cons, hd, Option.isSome_some, if_true, List.map_cons,
          Option.getD_some, List.flatten_cons]
      · simp only [h2, List.forall_mem_cons, hd, Option.isSome_some, true_and]
      · simp only [h4, List.takeWhile_cons, hd, Option.isSome_some, if_true, List.flatMap_cons, warningsOf,
          List.append_assoc, List.find?_cons, Option.isNone_some]

/-- **C37.** A diff is printed exactly for files that change, under their name. -/
theorem c37_diff (diff : List Char → List Char → Hunks) (name : Name) (a b : List Char) :
    (printDiff diff name a b = [] ↔ a = b) ∧
    (a ≠ b → ∃ rest, printDiff diff name a b = "--- ".toList ++ name ++ "\n+++ ".toList ++ name ++ '\n' :: rest) := by
  rw [printDiff]
  by_cases h : a = b
  · simp [h]
  · rw [if_neg h]
    exact ⟨by simp [h], fun _ => ⟨_, by simp; rfl⟩⟩

/-- The changes of a hunk on one side. -/
theorem side_changes (own : Char) (tag : ChangeTag)
    (ht : (own = '-' ∧ tag = .insert) ∨ (own = '+' ∧ tag = .delete)) :
    ∀ (cs : List (ChangeTag × List Char)) (rest : List Char), (∀ c ∈ cs, IsLine c.2) →
      ((splitOn '\n' ((cs.map printChange).flatten ++ rest)).map (sideLine own)).flatten =
        ((cs.filter fun c => c.1 ≠ tag).map (·.2)).flatten ++
          ((splitOn '\n' rest).map (sideLine own)).flatten
  | [], rest, _ => rfl
  | c :: cs, rest, h => by
    obtain ⟨t, e, ht'⟩ := h c (by simp)
    have ih := side_changes own tag ht cs rest (fun c hc => h c (by simp [hc]))
    obtain ⟨k, s⟩ := c
    simp only at e
    subst e
    have hp : ∀ k', printChange (k', t ++ ['\n']) =
        (match k' with | .delete => '-' | .insert => '+' | .equal => ' ') :: t ++ ['\n'] := by
      intro k'
      cases k' <;> simp [printChange]
    have hn : ∀ x : Char, x ≠ '\n' → '\n' ∉ x :: t := fun x hx => by
      simp only [List.mem_cons, not_or]
      exact ⟨fun h => hx h.symm, ht'⟩
    have hs : ∀ x : Char, x ≠ '\n' → ∀ r : List Char,
        splitOn '\n' (x :: t ++ ['\n'] ++ r) = (x :: t) :: splitOn '\n' r := by
      intro x hx r
      rw [List.append_assoc, List.singleton_append]
      exact splitOn_append_sep (hn x hx) r
    rw [List.map_cons, List.flatten_cons, List.append_assoc, hp]
    rcases ht with ⟨rfl, rfl⟩ | ⟨rfl, rfl⟩ <;> cases k <;>
      simp only [hs _ (by decide : ('-' : Char) ≠ '\n'), hs _ (by decide : ('+' : Char) ≠ '\n'),
        hs _ (by decide : (' ' : Char) ≠ '\n'), List.map_cons, List.flatten_cons, ih] <;>
      simp [sideLine]

theorem side_hunks (own : Char) (tag : ChangeTag)
    (ht : (own = '-' ∧ tag = .insert) ∨ (own = '+' ∧ tag = .delete)) :
    ∀ (hs : Hunks) (rest : List Char),
      (∀ h ∈ hs, (∃ t, h.1 = '@' :: t) ∧ '\n' ∉ h.1 ∧ ∀ c ∈ h.2, IsLine c.2) →
      ((splitOn '\n' ((hs.map fun h => h.1 ++ ['\n'] ++ (h.2.map printChange).flatten).flatten ++
        rest)).map (sideLine own)).flatten =
        (((hs.flatMap (·.2)).filter fun c => c.1 ≠ tag).map (·.2)).flatten ++
          ((splitOn '\n' rest).map (sideLine own)).flatten
  | [], rest, _ => rfl
  | h :: hs, rest, hh => by
    obtain ⟨⟨t, e⟩, hn, hc⟩ := hh h (by simp)
    have ih := side_hunks own tag ht hs rest (fun h' hm => hh h' (by simp [hm]))
    have hh1 : sideLine own h.1 = [] := by
      rw [e, sideLine]
      rcases ht with ⟨rfl, _⟩ | ⟨rfl, _⟩ <;> rfl
    rw [List.map_cons, List.flatten_cons, List.append_assoc, List.append_assoc, List.append_assoc,
      List.singleton_append, splitOn_append_sep hn, List.map_cons, List.flatten_cons, hh1,
      List.nil_append, side_changes own tag ht _ _ hc, ih]
    simp

/-- **C37.** The diff can be read: if the hunks consist of lines and have headers as usual, the
old side of the printed diff has the deleted and unchanged lines, the new side the inserted and
unchanged ones. -/
theorem c37_sides (diff : List Char → List Char → Hunks) (name : Name) (a b : List Char)
    (hab : a ≠ b) (hname : '\n' ∉ name)
    (hh : ∀ h ∈ diff a b, (∃ t, h.1 = '@' :: t) ∧ '\n' ∉ h.1 ∧ ∀ c ∈ h.2, IsLine c.2) :
    diffSide '-' (printDiff diff name a b) =
      ((((diff a b).flatMap (·.2)).filter fun c => c.1 ≠ .insert).map (·.2)).flatten ∧
    diffSide '+' (printDiff diff name a b) =
      ((((diff a b).flatMap (·.2)).filter fun c => c.1 ≠ .delete).map (·.2)).flatten := by
  have key : ∀ own, diffSide own (printDiff diff name a b) =
      ((splitOn '\n' (((diff a b).map fun h => h.1 ++ ['\n'] ++ (h.2.map printChange).flatten).flatten ++
        [])).map (sideLine own)).flatten := by
    intro own
    have h1 : '\n' ∉ "--- ".toList ++ name := by
      simp only [List.mem_append, not_or]
      exact ⟨by decide, hname⟩
    have h2 : '\n' ∉ "+++ ".toList ++ name := by
      simp only [List.mem_append, not_or]
      exact ⟨by decide, hname⟩
    rw [diffSide, printDiff, if_neg hab, List.append_nil]
    generalize ((diff a b).map fun h => h.1 ++ ['\n'] ++ (h.2.map printChange).flatten).flatten = body
    have e : "--- ".toList ++ name ++ ['\n'] ++ "+++ ".toList ++ name ++ ['\n'] ++ body =
        ("--- ".toList ++ name) ++ '\n' :: (("+++ ".toList ++ name) ++ '\n' :: body) := by
      simp only [List.append_assoc, List.cons_append, List.nil_append]
    rw [e, splitOn_append_sep h1, splitOn_append_sep h2]
    rfl
  constructor
  · rw [key, side_hunks '-' .insert (.inl ⟨rfl, rfl⟩) _ _ hh]
    simp [splitOn, sideLine]
  · rw [key, side_hunks '+' .delete (.inr ⟨rfl, rfl⟩) _ _ hh]
    simp [splitOn, sideLine]

/-- **C37 is false** for a file without a line break at the end: the diff shows one. If this is the
only change, the printed diff says that nothing changed. -/
theorem c37_newline_false : ¬ ∀ (diff : List Char → List Char → Hunks) (name : Name) (a b : List Char),
    a ≠ b → '\n' ∉ name →
    ((((diff a b).flatMap (·.2)).filter fun c => c.1 ≠ .insert).map (·.2)).flatten = a →
    ((((diff a b).flatMap (·.2)).filter fun c => c.1 ≠ .delete).map (·.2)).flatten = b →
    diffSide '-' (printDiff diff name a b) ≠ diffSide '+' (printDiff diff name a b) := by
  intro h
  exact h (fun a b => [("@@ -1 +1 @@".toList, [(.delete, a), (.insert, b)])]) ['b'] "b".toList
    "b\n".toList (by decide) (by decide) (by decide) (by decide) (by decide +kernel)

example : processSequential exFmt exDisk (fun _ _ o => o) [['b'], ['a'], ['x'], ['a']] =
    { exit := .failure, stdout := "b c\na\n".toList, stderr := [.readError ['x']] } := by decide +kernel

example : printDiff (fun a b => [("@@ -1 +1 @@".toList, [(.delete, a), (.insert, b)])]) ['b'] "b c ".toList "b c\n".toList =
    "--- b\n+++ b\n@@ -1 +1 @@\n-b c \n+b c\n".toList := by decide +kernel

/-! ### C39: directories -/

/-- **C39.** For each argument in order: the argument itself if it is no directory, otherwise all
Markdown files below it and no others, in sorted order. -/
theorem c39_expand (isDir : Name → Bool) (walk : Name → List Name) (paths : List Name) :
    ∃ parts : List (List Name), expandPaths isDir walk paths = parts.flatten ∧ parts.length = paths.length ∧
      ∀ (i : Nat) p part, paths[i]? = some p → parts[i]? = some part →
        (isDir p = false → part = [p]) ∧
        (isDir p = true → part.Pairwise (fun a b => pathLe a b = true) ∧
          ∀ n, (IsMarkdown n → part.count n = (walk p).count n) ∧ (¬ IsMarkdown n → n ∉ part)) := by
  refine ⟨_, rfl, by simp, ?_⟩
  intro i p part hp hpart
  rw [List.getElem?_map, hp] at hpart
  have hpart : (if isDir p then collectMdFiles walk p else [p]) = part := Option.some.inj hpart
  subst hpart
  constructor
  · intro h
    simp [h]
  · intro h
    rw [if_pos h, collectMdFiles]
    refine ⟨sortPaths_sorted _, fun n => ⟨fun hn => ?_, fun hn hmem => ?_⟩⟩
    · rw [(sortPaths_perm _).count_eq]
      exact List.count_filter ((isMarkdown_iff n).mpr hn)
    · rw [(sortPaths_perm _).mem_iff, List.mem_filter] at hmem
      exact hn ((isMarkdown_iff n).mp hmem.2)

/-- **C39.** The order is a total order by components: a file in a directory comes before what
follows the directory, whatever characters the names have. -/
theorem c39_order (a b c : Name) :
    (pathLe a b = true ∨ pathLe b a = true) ∧ (pathLe a b = true → pathLe b c = true → pathLe a c = true) ∧
    (pathLe a b = true → pathLe b a = true → a = b) :=
  ⟨pathLe_total a b, pathLe_trans, pathLe_antisymm⟩

example : expandPaths (fun n => n = "d".toList)
    (fun _ => ["d/z.md".toList, "d/b/x.MD".toList, "d/b.txt".toList, "d/.md".toList, "d/b-c/y.markdown".toList])
    ["q.txt".toList, "d".toList] =
    ["q.txt".toList, "d/b/x.MD".toList, "d/b-c/y.markdown".toList, "d/z.md".toList] := by decide +kernel

/-! ### C38: what is processed -/

/-- The configuration is usable: the line width of the command line is allowed, formatters have a
command and the dash settings do not conflict. -/
structure Ready (w : World) (args : Args) (o : Options) : Prop where
  options : toOptions (loadConfig w.places w.cwd args.config).1 args.lineWidth = some o
  formatters : ∀ f ∈ (loadConfig w.places w.cwd args.config).1.codeBlock.formatters, f.2.command ≠ []
  dashes : validateDashSettings o.punct = none

theorem Ready.find {w : World} {args : Args} {o : Options} (h : Ready w args o) :
    (loadConfig w.places w.cwd args.config).1.codeBlock.formatters.find? (·.2.command.isEmpty) = none := by
  rw [List.find?_eq_none]
  intro f hf
  simpa using h.formatters f hf

/-- **C38.** With `--stdin` or `-` the text on standard input is formatted, whatever files, modes and
other arguments there are, and no file is written. -/
theorem c38_stdin (w : World) (args : Args) (o : Options) (h : Ready w args o)
    (hstd : args.stdin = true ∨ ['-'] ∈ args.files) :
    (runMain w args).disk = w.disk ∧
    (∀ input, w.stdin = some input → (runMain w args).exit = .success ∧
      (runMain w args).stdout =
        if args.diff then printDiff w.diff "<stdin>".toList input (w.fmt o input).1 else (w.fmt o input).1) ∧
    (w.stdin = none → (runMain w args).exit = .failure ∧ (runMain w args).stdout = []) := by
  have hreq : (args.stdin || args.files.any (· = ['-'])) = true := by
    rcases hstd with h | h
    · simp [h]
    · simp [h]
  simp only [runMain, runWith, h.options, h.find, h.dashes, hreq, Option.isSome_none, Bool.false_eq_true, if_false, if_true,
    selectFiles, Bool.true_eq_false, and_false]
  cases w.stdin with
  | none => simp
  | some input => simp

/-- **C35, C38.** `--check` has no effect on standard input: text that is not formatted gives
success, too. -/
theorem c38_check_false : ¬ ∀ (w : World) (args : Args) (o : Options) (input : List Char), args.ok = true →
    Ready w args o → args.check = true → args.stdin = true → w.stdin = some input →
    ((runMain w args).exit = .success ↔ (w.fmt o input).1 = input) := by
  intro h
  have hr : Ready exWorld { check := true, stdin := true } defaultOptions :=
    ⟨by rfl, (by intro f hf; cases hf), by rfl⟩
  have := h exWorld { check := true, stdin := true } defaultOptions "x".toList rfl hr rfl rfl rfl
  revert this
  decide +kernel

/-- **C38.** Without arguments, standard input and `include` patterns the program fails. -/
theorem c38_no_input (w : World) (args : Args) (o : Options) (h : Ready w args o)
    (hf : args.files = []) (hs : args.stdin = false)
    (hi : (loadConfig w.places w.cwd args.config).1.includes = []) :
    (runMain w args).exit = .failure ∧ (runMain w args).stdout = [] ∧ (runMain w args).disk = w.disk ∧
      .noInput ∈ (runMain w args).stderr := by
  simp [runMain, runWith, h.options, h.find, h.dashes, hf, hs, selectFiles, hi]

/-- **C38.** Files are written only with `--write`, not with `--check`, and not if standard input is
read. -/
theorem c38_only_write (w : World) (args : Args) (h : (runMain w args).disk ≠ w.disk) :
    args.write = true ∧ args.check = false ∧ args.stdin = false ∧ ['-'] ∉ args.files := by
  simp only [runMain, runWith] at h
  cases ht : toOptions (loadConfig w.places w.cwd args.config).1 args.lineWidth with
  | none => rw [ht] at h; exact absurd rfl h
  | some o =>
    rw [ht] at h
    simp only [] at h
    cases hf : (loadConfig w.places w.cwd args.config).1.codeBlock.formatters.find? (·.2.command.isEmpty) with
    | some f => rw [hf] at h; exact absurd rfl h
    | none =>
      rw [hf] at h
      simp only [] at h
      by_cases hd : (validateDashSettings o.punct).isSome = true
      · rw [if_pos hd] at h; exact absurd rfl h
      · rw [if_neg hd] at h
        by_cases hreq : (args.stdin || args.files.any (· = ['-'])) = true
        · rw [hreq] at h
          exfalso
          apply h
          cases selectFiles w args (loadConfig w.places w.cwd args.config).1
              (loadConfig w.places w.cwd args.config).2.1 true with
          | error e => rfl
          | ok files => cases w.stdin <;> rfl
        · have hreq' : (args.stdin || args.files.any (· = ['-'])) = false := Bool.eq_false_iff.mpr hreq
          rw [hreq'] at h
          have hs : args.stdin = false ∧ ['-'] ∉ args.files := by
            simp only [Bool.or_eq_false_iff, List.any_eq_false, decide_eq_true_eq] at hreq'
            exact ⟨hreq'.1, fun hm => hreq'.2 _ hm rfl⟩
          refine ⟨?_, ?_, hs.1, hs.2⟩
          · cases hw : args.write with
            | true => rfl
            | false =>
              exfalso
              apply h
              cases selectFiles w args (loadConfig w.places w.cwd args.config).1
                  (loadConfig w.places w.cwd args.config).2.1 false with
              | error e => rfl
              | ok files =>
                cases hc : args.check with
                | false => simp [hw, hc]
                | true =>
                  simp only [hw, hc, Bool.false_eq_true, if_false, Bool.or_true, if_true]
                  exact c35_disk _ _ _ _ _ _
          · cases hc : args.check with
            | false => rfl
            | true =>
              exfalso
              apply h
              cases selectFiles w args (loadConfig w.places w.cwd args.config).1
                  (loadConfig w.places w.cwd args.config).2.1 false with
              | error e => rfl
              | ok files =>
                simp only [hc, Bool.false_eq_true, if_false, Bool.or_true, if_true]
                exact c35_disk _ _ _ _ _ _

/-- The files that the arguments, or else the `include` patterns, select. -/
def Selects (w : World) (args : Args) (files : List Name) : Prop :=
  args.stdin = false ∧ ['-'] ∉ args.files ∧
    ((args.files ≠ [] ∧ files = expandPaths w.isDir w.walk args.files) ∨
      (args.files = [] ∧ (loadConfig w.places w.cwd args.config).1.includes ≠ [] ∧
        w.collect (loadConfig w.places w.cwd args.config).1 (loadConfig w.places w.cwd args.config).2.1 = some files))

theorem Selects.eq {w : World} {args : Args} {files : List Name} (h : Selects w args files) :
    (args.stdin || args.files.any (· = ['-'])) = false ∧
    selectFiles w args (loadConfig w.places w.cwd args.config).1 (loadConfig w.places w.cwd args.config).2.1 false =
      .ok files := by
  obtain ⟨h1, h2, h3⟩ := h
  constructor
  · simp only [Bool.or_eq_false_iff, List.any_eq_false, decide_eq_true_eq]
    exact ⟨h1, fun n hn e => h2 (e ▸ hn)⟩
  · rw [selectFiles]
    rcases h3 with ⟨h3, rfl⟩ | ⟨h3, h4, h5⟩
    · rw [if_neg (by simp [h3])]
      simp
    · rw [if_pos ⟨h3, rfl⟩, if_pos h4, h5]

/-- **C35, C38.** The whole program with `--check`: no file changes, and the exit code is success
exactly if all files selected are formatted. -/
theorem c38_check_files (w : World) (args : Args) (o : Options) (files : List Name) (h : Ready w args o)
    (hsel : Selects w args files) (hc : args.check = true)
    (hfin : ((Par.init files w.disk).run (w.fmt o) w.faults files args.write true w.schedule).finished = true) :
    (runMain w args).disk = w.disk ∧
    ((runMain w args).exit = .success ↔ ∀ n ∈ files, ∃ input, w.disk n = some input ∧ (w.fmt o input).1 = input) := by
  obtain ⟨hreq, hs⟩ := hsel.eq
  obtain ⟨h1, _⟩ := c35_check (w.fmt o) w.faults files args.write w.disk w.schedule _ rfl hfin
  simp only [runMain, runWith, h.options, h.find, h.dashes, hreq, Option.isSome_none, Bool.false_eq_true, if_false, if_true,
    hs, hc, Bool.or_true]
  exact ⟨c35_disk _ _ _ _ _ _, h1⟩

/-- **C36, C38.** The whole program with `--write` on different files. -/
theorem c38_write_files (w : World) (args : Args) (o : Options) (files : List Name) (h : Ready w args o)
    (hsel : Selects w args files) (hw : args.write = true) (hc : args.check = false) (hn : files.Nodup)
    (hfin : ((Par.init files w.disk).run (w.fmt o) w.faults files true false w.schedule).finished = true) :
    (∀ n ∈ files, (runMain w args).disk n = written (w.fmt o) w.faults w.disk n) ∧
    (∀ n, n ∉ files → (runMain w args).disk n = w.disk n) := by
  obtain ⟨hreq, hs⟩ := hsel.eq
  obtain ⟨h1, h2, _⟩ := c36_write (w.fmt o) w.faults files w.disk w.schedule _ hn rfl hfin
  simp only [runMain, runWith, h.options, h.find, h.dashes, hreq, Option.isSome_none, Bool.false_eq_true, if_false, if_true,
    hs, hc, hw, Bool.or_false]
  exact ⟨h1, h2⟩

/-- **C37, C38.** The whole program without a mode prints the formatted files. -/
theorem c38_print_files (w : World) (args : Args) (o : Options) (files : List Name) (h : Ready w args o)
    (hsel : Selects w args files) (hw : args.write = false) (hc : args.check = false) (hd : args.diff = false) :
    (runMain w args).stdout = (readableOutputs w.disk (fun _ s => (w.fmt o s).1) files).flatten ∧
    ((runMain w args).exit = .success ↔ ∀ n ∈ files, (w.disk n).isSome = true) := by
  obtain ⟨hreq, hs⟩ := hsel.eq
  obtain ⟨h1, h2, _⟩ := c37_sequential (w.fmt o) w.disk (fun _ _ out => out) files
  simp only [runMain, runWith, h.options, h.find, h.dashes, hreq, Option.isSome_none, Bool.false_eq_true, if_false, if_true,
    hs, hc, hw, hd, Bool.or_false]
  exact ⟨h1, h2⟩

/-- **C37, C38.** The whole program with `--diff`: it goes with no other mode, prints the differences of the
files and changes none of them. -/
theorem c38_diff_files (w : World) (args : Args) (o : Options) (files : List Name) (h : Ready w args o)
    (hsel : Selects w args files) (hok : args.ok = true) (hd : args.diff = true) :
    (runMain w args).disk = w.disk ∧
    (runMain w args).stdout =
      (readableOutputs w.disk (fun n s => printDiff w.diff n s (w.fmt o s).1) files).flatten ∧
    ((runMain w args).exit = .success ↔ ∀ n ∈ files, (w.disk n).isSome = true) := by
  obtain ⟨hreq, hs⟩ := hsel.eq
  obtain ⟨hw, hc⟩ : args.write = false ∧ args.check = false := by
    simp only [Args.ok, hd, Bool.and_true, Bool.and_eq_true, Bool.not_eq_true'] at hok
    exact ⟨hok.1.2, hok.2⟩
  obtain ⟨h1, h2, _⟩ := c37_sequential (w.fmt o) w.disk
    (fun name input output => printDiff w.diff name input output) files
  simp only [runMain, runWith, h.options, h.find, h.dashes, hreq, Option.isSome_none, Bool.false_eq_true, if_false, if_true,
    hs, hc, hw, hd, Bool.or_false]
  exact ⟨trivial, h1, h2⟩

/-- **C38.** The modes which the command line allows: `--write`, `--check`, `--diff` or none. -/
theorem c38_modes (args : Args) : args.ok = true ↔
    (args.write, args.check, args.diff) ∈
      [(false, false, false), (true, false, false), (false, true, false), (false, false, true)] := by
  rw [Args.ok]
  cases args.write <;> cases args.check <;> cases args.diff <;> decide

example : (runMain exWorld { files := [['b'], ['a']] }).stdout = "b c\na\n".toList ∧
    (runMain exWorld { files := [['b'], ['a']], check := true }).exit = .failure ∧
    (runMain exWorld { files := [['b'], ['a']], write := true }).disk ['b'] = some "b c\n".toList ∧
    (runMain exWorld { files := [['b'], ['-']], write := true }).disk ['b'] = some "b c ".toList ∧
    (runMain exWorld { files := [['b'], ['-']], write := true }).stdout = "x\n".toList ∧
    (runMain exWorld {}).stderr = [.noInput] ∧
    (runMain exWorld { files := [['b']], lineWidth := some 5 }).exit = .panic := by decide +kernel

/-! ### C65: invalid configurations -/

/-- **C65.** The claim is false: with an invalid file the program formats and writes with the
defaults, and succeeds. -/
theorem c65_stops_false : ¬ ∀ (w : World) (args : Args) (p : Path), args.ok = true → args.config = some p →
    ((w.places.config p).bind id).bind readConfig = none →
    (runMain w args).exit ≠ .success ∧ (runMain w args).disk = w.disk := by
  intro h
  have := h { exWorld with places := exPlaces none none none (some (exWidth 5)) }
    { files := [['b']], write := true, config := some ["p".toList, ".hongdown.toml".toList] }
    ["p".toList, ".hongdown.toml".toList] rfl rfl (by decide +kernel)
  revert this
  intro this
  have h1 := this.1
  revert h1
  decide +kernel

/-- The configuration file is invalid, or one of those found. -/
def InvalidConfig (w : World) (args : Args) : Prop :=
  match args.config with
  | some p => ((w.places.config p).bind id).bind readConfig = none
  | none => loadCascading w.places w.cwd = none

/-- **C65.** What does hold: an invalid file gives a warning, before anything else, and then
everything is as without any configuration. -/
theorem c65_warning_partial (w : World) (args : Args) (h : InvalidConfig w args) :
    ∃ r : Result, r = runMain { w with places := ⟨fun _ => none, none, none⟩ } { args with config := none } ∧
      runMain w args = { r with stderr := .config :: r.stderr } := by
  refine ⟨_, rfl, ?_⟩
  have h1 : loadConfig w.places w.cwd args.config = ({}, w.cwd, true) := by
    rw [InvalidConfig] at h
    cases hc : args.config with
    | none => rw [hc] at h; simp only [] at h; simp only [loadConfig, h]
    | some p => rw [hc] at h; simp only [] at h; simp only [loadConfig, h]
  have h2 : loadConfig ⟨fun _ => none, none, none⟩ w.cwd none = ({}, w.cwd, false) := by
    have hd : discoverProject ⟨fun _ => none, none, none⟩ w.cwd = some none := by
      rw [discoverProject]
      induction w.cwd.reverse with
      | nil => rfl
      | cons c cs ih => simpa only [discoverGo] using ih
    have : loadCascading ⟨fun _ => none, none, none⟩ w.cwd = some ({}, none) := by
      simp only [loadCascading, hd]
      rfl
    simp only [loadConfig, this]
    rfl
  have h3 : runWith { w with places := ⟨fun _ => none, none, none⟩ } { args with config := none } {} w.cwd =
      runWith w args {} w.cwd := rfl
  simp only [runMain, h1, h2, h3]
  simp

end Hongdown.Props
