import Verif.Props.Cli
import Verif.Props.Nested
import Verif.Props.Defaults

/-!
# One run after another: C103
-/

namespace Hongdown.Props
open Model Spec

/-- `hongdown --write` with usable settings, which selects the given files, each once. The workers get
enough turns. -/
structure WriteRun (w : World) (args : Args) (o : Options) (files : List Name) : Prop where
  ready : Ready w args o
  write : args.write = true
  check : args.check = false
  stdin : args.stdin = false
  dash : ['-'] ∉ args.files
  selected : selectFiles w args (loadConfig w.places w.cwd args.config).1 (loadConfig w.places w.cwd args.config).2.1 false = .ok files
  nodup : files.Nodup
  turns : ∀ i n, files[i]? = some n → (formatOf (w.fmt o) w.disk n).length + 3 ≤ w.schedule.count i

/-- The world after a run, in which the workers take other turns. -/
def worldAfter (w : World) (args : Args) (schedule : List Nat) : World :=
  { w with disk := (runMain w args).disk, schedule := schedule }

theorem runMain_par {w : World} {args : Args} {o : Options} {files : List Name} (hr : Ready w args o)
    (hm : (args.write || args.check) = true) (hs : args.stdin = false) (hd : ['-'] ∉ args.files)
    (hf : selectFiles w args (loadConfig w.places w.cwd args.config).1 (loadConfig w.places w.cwd args.config).2.1 false = .ok files) :
    (runMain w args).exit = ((Par.init files w.disk).run (w.fmt o) w.faults files args.write args.check w.schedule).exit args.check ∧
    (runMain w args).stdout = (((Par.init files w.disk).run (w.fmt o) w.faults files args.write args.check w.schedule).stdout.map (· ++ ['\n'])).flatten ∧
    (runMain w args).disk = ((Par.init files w.disk).run (w.fmt o) w.faults files args.write args.check w.schedule).disk := by
  have hreq : (args.stdin || args.files.any (· = ['-'])) = false := by
    rw [hs, Bool.false_or, List.any_eq_false]
    intro x hx h
    rw [decide_eq_true_eq] at h
    exact hd (h ▸ hx)
  simp only [runMain, runWith, hr.options, hr.find, hr.dashes, hreq, Option.isSome_none, Bool.false_eq_true, if_false, hf, hm, if_true,
    and_self]

/-- **C103 (partial).** Full statement: without `hidem` (`c103_false`). After a successful `hongdown --write`,
`hongdown --check` with the same arguments succeeds, prints nothing and leaves all files as they are, if the files
are such that formatting them twice is formatting them once; and a second `hongdown --write` succeeds, too, writes no
file and prints no name. -/
theorem c103_program_partial (w : World) (args : Args) (o : Options) (files : List Name) (schedule : List Nat)
    (h : WriteRun w args o files) (hx : (runMain w args).exit = .success)
    (hidem : ∀ n ∈ files, ∀ s, w.disk n = some s → (w.fmt o (w.fmt o s).1).1 = (w.fmt o s).1)
    (ht : ∀ i n, files[i]? = some n → (formatOf (w.fmt o) w.disk n).length + 3 ≤ schedule.count i) :
    ((runMain (worldAfter w args schedule) { args with write := false, check := true }).exit = .success ∧
      (runMain (worldAfter w args schedule) { args with write := false, check := true }).stdout = [] ∧
      (runMain (worldAfter w args schedule) { args with write := false, check := true }).disk = (runMain w args).disk) ∧
    (runMain (worldAfter w args schedule) args).exit = .success ∧
      (runMain (worldAfter w args schedule) args).stdout = [] ∧
      (runMain (worldAfter w args schedule) args).disk = (runMain w args).disk := by
  obtain ⟨hr, hw, hc, hs, hd, hf, hn, htn⟩ := h
  obtain ⟨a1, _, a3⟩ := runMain_par hr (by simp [hw]) hs hd hf
  rw [hw, hc] at a1 a3
  have hfin := c35_finishes (w.fmt o) w.faults files true false w.disk w.schedule (.inr hn) htn
  rw [hx] at a1
  -- the files after the first run
  obtain ⟨g1, g2, _, g4, _⟩ := c36_write (w.fmt o) w.faults files w.disk w.schedule _ hn rfl hfin
  have hgood : ∀ n ∈ files, ∃ s, w.disk n = some s ∧
      ((Par.init files w.disk).run (w.fmt o) w.faults files true false w.schedule).disk n = some (w.fmt o s).1 := by
    intro n hmem
    have hno : ¬ (∃ n ∈ files, outcome (w.fmt o) w.faults w.disk n = .unreadable ∨
      outcome (w.fmt o) w.faults w.disk n = .denied ∨ ∃ k, outcome (w.fmt o) w.faults w.disk n = .cut k) := by
      rw [← g4, ← a1]; simp
    rw [g1 n hmem, Spec.written]
    cases hdn : w.disk n with
    | none => exact absurd ⟨n, hmem, .inl (by rw [outcome, hdn])⟩ hno
    | some s =>
      refine ⟨s, rfl, ?_⟩
      by_cases he : (w.fmt o s).1 = s
      · have : outcome (w.fmt o) w.faults w.disk n = .formatted := by rw [outcome, hdn]; simp only; rw [if_pos he]
        rw [this, he]
      · have h1 : w.faults.denied n = false := by
          cases e : w.faults.denied n with
          | false => rfl
          | true => exact absurd ⟨n, hmem, .inr (.inl (by rw [outcome, hdn]; simp only; rw [if_neg he, if_pos e]))⟩ hno
        have : outcome (w.fmt o) w.faults w.disk n = .differs := by
          cases e : outcome (w.fmt o) w.faults w.disk n with
          | differs => rfl
          | cut k => exact absurd ⟨n, hmem, .inr (.inr ⟨k, e⟩)⟩ hno
          | denied => exact absurd ⟨n, hmem, .inr (.inl e)⟩ hno
          | unreadable => exact absurd ⟨n, hmem, .inl e⟩ hno
          | formatted =>
            rw [outcome, hdn] at e
            simp only at e
            rw [if_neg he, if_neg (by simp [h1])] at e
            split at e
            · split at e <;> cases e
            · cases e
        rw [this, formatOf, hdn]
  rw [← a3] at hgood
  have htn' : ∀ i n, files[i]? = some n → (formatOf (w.fmt o) (runMain w args).disk n).length + 3 ≤ schedule.count i := by
    intro i n hi
    have hmem := List.mem_of_getElem? hi
    obtain ⟨s, e1, e2⟩ := hgood n hmem
    have := ht i n hi
    rw [formatOf, e1] at this
    rw [formatOf, e2]
    simp only at this ⊢
    rw [hidem n hmem s e1]
    exact this
  have hformatted : ∀ n ∈ files, ∃ input, (runMain w args).disk n = some input ∧ (w.fmt o input).1 = input := by
    intro n hmem
    obtain ⟨s, e1, e2⟩ := hgood n hmem
    exact ⟨_, e2, hidem n hmem s e1⟩
  have hr' : Ready (worldAfter w args schedule) args o := ⟨hr.options, hr.formatters, hr.dashes⟩
  have hr'' : Ready (worldAfter w args schedule) { args with write := false, check := true } o := ⟨hr.options, hr.formatters, hr.dashes⟩
  constructor
  · obtain ⟨b1, b2, b3⟩ := runMain_par (args := { args with write := false, check := true }) hr'' (by simp) hs hd hf
    have hfin' := c35_finishes (w.fmt o) w.faults files false true (runMain w args).disk schedule (.inl rfl) htn'
    obtain ⟨c1, _, _, c4⟩ := c35_check (w.fmt o) w.faults files false (runMain w args).disk schedule _ rfl hfin'
    refine ⟨?_, ?_, ?_⟩
    · rw [b1]; exact c1.2 hformatted
    · rw [b2]
      show (List.map _ (Par.stdout ((Par.init files (runMain w args).disk).run (w.fmt o) w.faults files false true schedule))).flatten = []
      rw [c4]; rfl
    · rw [b3]; exact c35_disk _ _ _ _ _ _
  · obtain ⟨b1, b2, b3⟩ := runMain_par (args := args) hr' (by simp [hw]) hs hd hf
    rw [hw, hc] at b1 b2 b3
    have hfin' := c35_finishes (w.fmt o) w.faults files true false (runMain w args).disk schedule (.inr hn) htn'
    obtain ⟨c1, c2, c3, c4, _⟩ := c36_write (w.fmt o) w.faults files (runMain w args).disk schedule _ hn rfl hfin'
    have hout : ∀ n ∈ files, outcome (w.fmt o) w.faults (runMain w args).disk n = .formatted := by
      intro n hmem
      obtain ⟨s, e1, e2⟩ := hformatted n hmem
      rw [outcome, e1]
      simp only
      rw [if_pos e2]
    refine ⟨?_, ?_, ?_⟩
    · rw [b1]
      rcases e : Par.exit false ((Par.init files (runMain w args).disk).run (w.fmt o) w.faults files true false schedule) with _ | _ | _
      · exact e
      · obtain ⟨n, hmem, h1⟩ := c4.1 e
        rw [hout n hmem] at h1
        rcases h1 with h1 | h1 | ⟨_, h1⟩ <;> cases h1
      · rw [Par.exit] at e; split at e <;> cases e
    · rw [b2]
      have : (Par.stdout ((Par.init files (runMain w args).disk).run (w.fmt o) w.faults files true false schedule)) = [] := by
        refine List.Perm.eq_nil (c3.trans ?_)
        rw [List.filter_eq_nil_iff.2]
        intro n hmem
        rw [hout n hmem]; simp
      show (List.map _ (Par.stdout ((Par.init files (runMain w args).disk).run (w.fmt o) w.faults files true false schedule))).flatten = []
      rw [this]; rfl
    · rw [b3]
      funext n
      by_cases hmem : n ∈ files
      · refine (c1 n hmem).trans ?_
        rw [Spec.written, hout n hmem]
      · exact c2 n hmem

/-- The formatting function of the program, without formatters for code. -/
def programFormat (cx : Cx) (parse : List Char → Node) (o : Options) : Fmt :=
  formatWithWarnings { cx with opts := o, callback := none } parse

/-- **C103 (partial).** The same for the formatting function itself, with a parser that agrees with the reader of
C82, for files in the fragment of C82. Full statement: for all files (`c103_false`). -/
theorem c103_documents_partial (cx : Cx) (parse : List Char → Node) (hp : AgreesTree parse) (w : World) (args : Args) (o : Options)
    (files : List Name) (schedule : List Nat) (hw : w.fmt = programFormat cx parse) (h : WriteRun w args o files)
    (hx : (runMain w args).exit = .success) (ho : NestedOptions o)
    (hd : ∀ n ∈ files, ∀ s, w.disk n = some s → ∃ d, ReadsAs s d ∧ (∀ b ∈ blocksLeaves d, BlockFits { cx with opts := o, callback := none } b) ∧
      regularBlocks d = true ∧ follows notBothLists (shownTrees d) = true)
    (ht : ∀ i n, files[i]? = some n → (formatOf (w.fmt o) w.disk n).length + 3 ≤ schedule.count i) :
    (runMain (worldAfter w args schedule) { args with write := false, check := true }).exit = .success ∧
    (runMain (worldAfter w args schedule) args).stdout = [] ∧
    (runMain (worldAfter w args schedule) args).disk = (runMain w args).disk := by
  obtain ⟨⟨h1, _, _⟩, _, h2, h3⟩ := c103_program_partial w args o files schedule h hx (fun n hn s hs => by
    obtain ⟨d, d1, d2, d3, d4⟩ := hd n hn s hs
    rw [hw]
    exact c82_twice_partial _ parse hp s d ho rfl d1 d2 d3 d4) ht
  exact ⟨h1, h2, h3⟩

/-- A world without configuration files and with one file, which is formatted with the given parser. -/
def exOneFile (parse : List Char → Node) (text : List Char) (turns : Nat) : World :=
  { exWorld with
    disk := fun n => if n = ['b'] then some text else none
    fmt := programFormat (exWith defaultOptions) parse
    schedule := List.replicate turns 0 }

theorem exOneFile_ready (parse : List Char → Node) (text : List Char) (turns : Nat) (args : Args) (h1 : args.lineWidth = none)
    (h2 : args.config = none) : Ready (exOneFile parse text turns) args defaultOptions := by
  refine ⟨?_, ?_, rfl⟩
  · rw [h1, h2]; rfl
  · rw [h2]; intro f hf; cases hf

theorem exOneFile_run (parse : List Char → Node) (text : List Char) (turns : Nat)
    (h : ((programFormat (exWith defaultOptions) parse defaultOptions text).1).length + 3 ≤ turns) :
    WriteRun (exOneFile parse text turns) { files := [['b']], write := true } defaultOptions [['b']] where
  ready := exOneFile_ready parse text turns _ rfl rfl
  write := rfl
  check := rfl
  stdin := rfl
  dash := by decide
  selected := rfl
  nodup := by simp
  turns i n hi := by
    cases i with
    | succ i => simp at hi
    | zero =>
      have : n = ['b'] := by simpa [eq_comm] using hi
      rw [this]
      show ((programFormat (exWith defaultOptions) parse defaultOptions text).1).length + 3 ≤ (List.replicate turns 0).count 0
      rw [List.count_replicate_self]; exact h

theorem exOneFile_success (parse : List Char → Node) (text : List Char) (turns : Nat)
    (h : ((programFormat (exWith defaultOptions) parse defaultOptions text).1).length + 3 ≤ turns) :
    (runMain (exOneFile parse text turns) { files := [['b']], write := true }).exit = .success ∧
    (runMain (exOneFile parse text turns) { files := [['b']], write := true }).disk ['b'] =
      some (programFormat (exWith defaultOptions) parse defaultOptions text).1 := by
  have hr := exOneFile_run parse text turns h
  obtain ⟨a1, _, a3⟩ := runMain_par hr.ready rfl hr.stdin hr.dash hr.selected
  have hfin := c35_finishes _ (exOneFile parse text turns).faults [['b']] true false (exOneFile parse text turns).disk
    (exOneFile parse text turns).schedule (.inr hr.nodup) hr.turns
  obtain ⟨g1, _, _, g4, _⟩ := c36_write _ (exOneFile parse text turns).faults [['b']] (exOneFile parse text turns).disk
    (exOneFile parse text turns).schedule _ hr.nodup rfl hfin
  have hb : (exOneFile parse text turns).disk ['b'] = some text := rfl
  have ho : ∀ f : Fmt, outcome f (exOneFile parse text turns).faults (exOneFile parse text turns).disk ['b'] =
      if (f text).1 = text then .formatted else .differs := by
    intro f
    rw [outcome, hb]
    rfl
  constructor
  · rw [a1]
    rcases e : Par.exit false ((Par.init [['b']] (exOneFile parse text turns).disk).run ((exOneFile parse text turns).fmt defaultOptions)
        (exOneFile parse text turns).faults [['b']] true false (exOneFile parse text turns).schedule) with _ | _ | _
    · rfl
    · obtain ⟨n, hmem, h1⟩ := g4.1 e
      rw [List.mem_singleton.1 hmem, ho] at h1
      split at h1 <;> rcases h1 with h1 | h1 | ⟨_, h1⟩ <;> cases h1
    · rw [Par.exit] at e; split at e <;> cases e
  · rw [a3]
    refine (g1 ['b'] (by simp)).trans ?_
    rw [Spec.written, ho]
    by_cases he : (((exOneFile parse text turns).fmt defaultOptions) text).1 = text
    · rw [if_pos he]
      show some text = some (((exOneFile parse text turns).fmt defaultOptions) text).1
      rw [he]
    · rw [if_neg he]
      rfl

theorem exTree_all : ∀ b ∈ blocksLeaves exTreeBlocks, BlockFits (exWith defaultOptions) b := by
  intro b hb
  have : b = .heading 1 ["Title".toList] ∨ b = .paragraph ["*one".toList, "two* `x y`".toList] ∨ b = .paragraph ["three".toList] ∨
      b = .paragraph ["four".toList] ∨ b = .code "rust".toList ["let x = 1;".toList, []] ∨ b = .paragraph ["five".toList] ∨
      b = .paragraph ["six".toList] ∨ b = .paragraph ["words".toList] := by
    simpa [exTreeBlocks, blocksLeaves, leaves, itemsLeaves] using hb
  rcases this with rfl | rfl | rfl | rfl | rfl | rfl | rfl | rfl
  · exact ⟨by decide +kernel, markless_lines (by decide +kernel)⟩
  · exact markless_lines (by decide +kernel)
  · exact markless_lines (by decide +kernel)
  · exact markless_lines (by decide +kernel)
  · unfold BlockFits InfoFits; decide +kernel
  · exact markless_lines (by decide +kernel)
  · exact markless_lines (by decide +kernel)
  · exact markless_lines (by decide +kernel)

/-- The example of C82 as a file: after `--write` there is nothing left to do. -/
example (parse : List Char → Node) (hp : AgreesTree parse) (turns : Nat)
    (ht : ((programFormat (exWith defaultOptions) parse defaultOptions exTreeSource).1).length + 3 ≤ turns) :
    (runMain (worldAfter (exOneFile parse exTreeSource turns) { files := [['b']], write := true } (List.replicate turns 0))
      { files := [['b']], check := true }).exit = .success :=
  (c103_documents_partial (exWith defaultOptions) parse hp (exOneFile parse exTreeSource turns) { files := [['b']], write := true }
    defaultOptions [['b']] (List.replicate turns 0) rfl (exOneFile_run parse exTreeSource turns ht)
    (exOneFile_success parse exTreeSource turns ht).1 exOptions_nested (by
      intro n hn s hs
      rw [List.mem_singleton.1 hn] at hs
      have : s = exTreeSource := by
        have : some exTreeSource = some s := hs
        simpa [eq_comm] using this
      rw [this]
      exact ⟨exTreeBlocks, exTreeSource_reads, exTree_all, by decide +kernel, by decide +kernel⟩)
    (exOneFile_run parse exTreeSource turns ht).turns).1

/-- **C103 is false** in general: for a list directly after the code of an item, `--check` fails after a successful
`--write` (`c82_code_list_false`), with the default settings and a parser that agrees with the reader. -/
theorem c103_false : ¬ ∀ (cx : Cx) (parse : List Char → Node) (w : World) (args : Args) (o : Options) (files : List Name)
    (schedule : List Nat), AgreesTree parse → w.fmt = programFormat cx parse → WriteRun w args o files → NestedOptions o →
    (runMain w args).exit = .success → (∀ n ∈ files, ∀ s, w.disk n = some s → ∃ d, ReadsAs s d) →
    (∀ i n, files[i]? = some n → (formatOf (w.fmt o) (runMain w args).disk n).length + 3 ≤ schedule.count i) →
    (runMain (worldAfter w args schedule) { args with write := false, check := true }).exit = .success := by
  intro h
  obtain ⟨parse, hp⟩ := c82_parser
  have h1 : ReadsAs "- a\n\n  ~~~\n  x\n  ~~~\n  - b\n".toList [.list false none false [[.leaf false (.paragraph ["a".toList]),
      .leaf true (.code [] ["x".toList]), .list false none true [[.leaf false (.paragraph ["b".toList])]]]]] :=
    ⟨by decide +kernel, by decide +kernel, by decide +kernel, by decide +kernel,
    content_textOnly (by decide +kernel), 30, by decide +kernel⟩
  have h2 : ReadsAs " -  a\n\n    ~~~~\n    x\n    ~~~~\n\n     -  b\n".toList [.list false none false [[.leaf false (.paragraph ["a".toList]),
      .leaf true (.code [] ["x".toList]), .list true none true [[.leaf false (.paragraph ["b".toList])]]]]] :=
    ⟨by decide +kernel, by decide +kernel, by decide +kernel, by decide +kernel,
    content_textOnly (by decide +kernel), 30, by decide +kernel⟩
  have e1 := writes_tree (cx := exWith defaultOptions) hp exOptions_nested rfl h1 (by decide +kernel) (by decide +kernel) (by decide +kernel) (by decide)
  have e2 := writes_tree (cx := exWith defaultOptions) hp exOptions_nested rfl h2 (by decide +kernel) (by decide +kernel) (by decide +kernel) (by decide)
  rw [show treeDoc (exWith defaultOptions) none false _ = " -  a\n\n    ~~~~\n    x\n    ~~~~\n\n     -  b\n".toList by decide +kernel] at e1
  rw [show treeDoc (exWith defaultOptions) none false _ = " -  a\n\n    ~~~~\n    x\n    ~~~~\n\n\n     -  b\n".toList by decide +kernel] at e2
  generalize hs1 : "- a\n\n  ~~~\n  x\n  ~~~\n  - b\n".toList = s1 at *
  generalize hs2 : " -  a\n\n    ~~~~\n    x\n    ~~~~\n\n     -  b\n".toList = s2 at *
  generalize hs3 : " -  a\n\n    ~~~~\n    x\n    ~~~~\n\n\n     -  b\n".toList = s3 at *
  have ef1 : (programFormat (exWith defaultOptions) parse defaultOptions s1).1 = s2 := e1
  have ef2 : (programFormat (exWith defaultOptions) parse defaultOptions s2).1 = s3 := e2
  obtain ⟨T, hT⟩ : ∃ T, T = 60 := ⟨_, rfl⟩
  have ht : ((programFormat (exWith defaultOptions) parse defaultOptions s1).1).length + 3 ≤ T := by
    rw [hT, ef1, ← hs2]; decide +kernel
  have hr := exOneFile_run parse s1 T ht
  obtain ⟨x1, x2⟩ := exOneFile_success parse s1 T ht
  rw [ef1] at x2
  have hturn : ∀ i n, [['b']][i]? = some n →
      (formatOf ((exOneFile parse s1 T).fmt defaultOptions) (runMain (exOneFile parse s1 T) { files := [['b']], write := true }).disk n).length + 3 ≤
        (List.replicate T 0).count i := by
    intro i n hi
    cases i with
    | succ i => simp at hi
    | zero =>
      have : n = ['b'] := by simpa [eq_comm] using hi
      rw [this, formatOf, x2]
      show ((programFormat (exWith defaultOptions) parse defaultOptions s2).1).length + 3 ≤ _
      rw [ef2, ← hs3, List.count_replicate_self, hT]; decide +kernel
  have := h (exWith defaultOptions) parse (exOneFile parse s1 T) { files := [['b']], write := true } defaultOptions [['b']]
    (List.replicate T 0) hp rfl hr exOptions_nested x1 (by
      intro n hn s hs
      rw [List.mem_singleton.1 hn] at hs
      have : s1 = s := Option.some.inj hs
      exact ⟨_, this ▸ h1⟩) hturn
  obtain ⟨b1, _, _⟩ := runMain_par (w := worldAfter (exOneFile parse s1 T) { files := [['b']], write := true } (List.replicate T 0))
    (args := { files := [['b']], check := true }) (o := defaultOptions) (files := [['b']])
    ⟨(exOneFile_ready parse s1 T { files := [['b']], check := true } rfl rfl).options,
      (exOneFile_ready parse s1 T { files := [['b']], check := true } rfl rfl).formatters, rfl⟩ rfl rfl (by decide) rfl
  have hfin' := c35_finishes ((exOneFile parse s1 T).fmt defaultOptions) exFine [['b']] false true
    (runMain (exOneFile parse s1 T) { files := [['b']], write := true }).disk (List.replicate T 0) (.inl rfl) hturn
  obtain ⟨c1, _⟩ := c35_check ((exOneFile parse s1 T).fmt defaultOptions) exFine [['b']] false
    (runMain (exOneFile parse s1 T) { files := [['b']], write := true }).disk (List.replicate T 0) _ rfl hfin'
  obtain ⟨input, i1, i2⟩ := c1.1 (b1.symm.trans this) ['b'] (by simp)
  rw [x2, Option.some.injEq] at i1
  subst i1
  have i3 : s3 = s2 := ef2.symm.trans i2
  rw [← hs2, ← hs3] at i3
  exact absurd i3 (by decide +kernel)

end Hongdown.Props
