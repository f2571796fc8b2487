import Verif.Spec.Config
import Verif.Lemmas.Config
import Verif.Props.Refs

/-!
# Configuration: C30, C31, C32, C33, C65, C66, C67
-/

namespace Hongdown.Props
open Model Spec

/-! ### C30: checked values -/

/-- **C30.** The constructors of the number types take exactly the documented ranges, and keep
the value. -/
theorem c30_ranges (n m : Nat) :
    (leadingSpacesNew n = some m ↔ m = n ∧ n ≤ 3) ∧
    (trailingSpacesNew n = some m ↔ m = n ∧ n ≤ 3) ∧
    (indentWidthNew n = some m ↔ m = n ∧ 1 ≤ n) ∧
    (lineWidthNew n = some m ↔ m = n ∧ 8 ≤ n) ∧
    (minFenceLengthNew n = some m ↔ m = n ∧ 3 ≤ n) := by
  simp only [leadingSpacesNew, trailingSpacesNew, indentWidthNew, lineWidthNew, minFenceLengthNew]
  refine ⟨?_, ?_, ?_, ?_, ?_⟩ <;>
  · split <;> simp <;> omega

/-- **C30.** Dash patterns are exactly the non-empty strings of printable ASCII characters. -/
theorem c30_dash (s t : List Char) :
    dashPatternNew s = some t ↔ t = s ∧ s ≠ [] ∧ ∀ c ∈ s, '!' ≤ c ∧ c ≤ '~' :=
  dashNew_iff s t

/-- **C30.** Every configuration file that loads gives options in the documented ranges,
whatever the command line says. -/
theorem c30_file (t : List (List Char × Toml)) (c : Config) (lineWidth : Option Nat) (o : Options)
    (h : readConfig t = some c) (ho : toOptions c lineWidth = some o) : OptionsOk o :=
  toOptions_ok (readConfig_ok h) ho

/-- **C30.** The same for the program as a whole: whatever files exist, valid or not, the options
used are in the documented ranges. -/
theorem c30_program (w : Places) (cwd : Path) (explicit : Option Path) (lineWidth : Option Nat)
    (o : Options) (ho : toOptions (loadConfig w cwd explicit).1 lineWidth = some o) : OptionsOk o := by
  refine toOptions_ok ?_ ho
  rw [loadConfig.eq_def]
  split
  · split
    · rename_i h
      rw [Option.bind_eq_some_iff] at h
      exact readConfig_ok h.choose_spec.2
    · exact default_ok
  · split
    · rename_i h
      exact loadCascading_ok h
    · exact default_ok

/-- A file with some settings. -/
def exSettings : List (List Char × Toml) :=
  [("line_width".toList, .int 100),
   ("unordered_list".toList, .table [("unordered_marker".toList, .str ['*']), ("leading_spaces".toList, .int 3)]),
   ("punctuation".toList, .table [("en_dash".toList, .str "--".toList), ("em_dash".toList, .str "---".toList)])]

example : ((readConfig exSettings).bind (toOptions · none)).map (fun o =>
    (o.lineWidth, o.unorderedMarker, o.leadingSpaces, o.minFenceLength)) = some (100, '*', 3, 4) ∧
    ((readConfig exSettings).bind (toOptions · none)).map (fun o => (o.punct.enDash, o.punct.emDash)) =
    some (some "--".toList, some "---".toList) := by decide +kernel

/-- One value out of range and the whole file is refused. -/
example : readConfig (exSettings ++ [("thematic_break".toList, .table [("leading_spaces".toList, .int 4)])]) = none ∧
    readConfig [("line_width".toList, .int 7)] = none ∧ readConfig [("line_width".toList, .int (-1))] = none := by
  decide +kernel

/-- **C30.** A line width below 8 on the command line stops the program with a panic, any other
is used instead of that of the file. -/
theorem c30_commandLine (c : Config) (n : Nat) :
    (toOptions c (some n) = none ↔ n < 8) ∧
    (8 ≤ n → toOptions c (some n) = (toOptions c none).map fun o => { o with lineWidth := n }) := by
  simp only [toOptions, lineWidthNew, Option.bind_eq_bind]
  by_cases h : n < 8
  · simp [h]
    try omega
  · simp [h]

/-! ### C31: thematic breaks -/

/-- **C31.** The styles that are accepted, exactly; an accepted style is kept as it is. -/
theorem c31_accepts (s t : List Char) : thematicBreakStyleNew s = some t ↔ t = s ∧ StyleOk s :=
  styleNew_iff s t

/-- **C31.** The claim is false: an accepted style may mix markers, ... -/
theorem c31_style_false : ¬ ∀ (s t : List Char) (k : Nat), thematicBreakStyleNew s = some t → k ≤ 3 →
    IsThematicBreak (List.replicate k ' ' ++ t) := by
  intro h
  obtain ⟨k, m, rest, _, hm, e, hr, hc⟩ := h "---*".toList "---*".toList 0 (by decide +kernel) (by decide)
  cases k with
  | succ k => simp [List.replicate_succ] at e
  | zero =>
    simp at e
    obtain ⟨rfl, rfl⟩ := e
    have := hr '*' (by simp)
    revert this
    decide

/-- **C31.** ... or begin with spaces, which makes an indented code block of it. -/
theorem c31_indent_false : ¬ ∀ (s t : List Char) (k : Nat), thematicBreakStyleNew s = some t → k ≤ 3 →
    (∀ c ∈ s, c = '-' ∨ c = ' ') → IsThematicBreak (List.replicate k ' ' ++ t) := by
  intro h
  obtain ⟨k, m, rest, hk, hm, e, hr, hc⟩ := h " ---".toList " ---".toList 3 (by decide +kernel) (by decide)
    (by decide +kernel)
  have h4 : k = 0 ∨ k = 1 ∨ k = 2 ∨ k = 3 := by omega
  rcases h4 with rfl | rfl | rfl | rfl
  all_goals
    simp [List.replicate] at e
    rcases hm with rfl | rfl | rfl <;> simp at e

/-- **C31.** What is missing from the claim, exactly, for accepted styles without white space
around them: only one kind of marker. -/
theorem c31_break_partial (s t : List Char) (k : Nat) (h : thematicBreakStyleNew s = some t) (hk : k ≤ 3)
    (ht : trim s = s) :
    IsThematicBreak (List.replicate k ' ' ++ t) ↔ ∃ m, ∀ c ∈ s, c = m ∨ c = ' ' ∨ c = '\t' := by
  obtain ⟨rfl, hs⟩ := (styleNew_iff s t).mp h
  have hb : ∀ c rest, t = c :: rest → c = '*' ∨ c = '-' ∨ c = '_' := by
    intro c rest e
    have hw : isWs c = false := trimmed_head ht e
    rcases hs.chars c (by rw [ht, e]; simp) with h | h | h | h | h
    · exact .inl h
    · exact .inr (.inl h)
    · exact .inr (.inr h)
    · subst h; exact absurd hw (by decide)
    · subst h; exact absurd hw (by decide)
  cases t with
  | nil =>
    obtain ⟨m, _, h3, _⟩ := hs.one
    simp at h3
  | cons c rest =>
    have hc := hb c rest rfl
    have hcs : c ≠ ' ' := by rcases hc with rfl | rfl | rfl <;> decide
    constructor
    · rintro ⟨k', m, rest', _, hm, e, hr, _⟩
      have hms : m ≠ ' ' := by rcases hm with rfl | rfl | rfl <;> decide
      obtain ⟨_, e2⟩ := replicate_space_inj hcs hms e
      cases e2
      refine ⟨c, fun d hd => ?_⟩
      rcases List.mem_cons.mp hd with rfl | hd
      · exact .inl rfl
      · exact hr d hd
    · rintro ⟨m, hm⟩
      have hcm : c = m := by
        rcases hm c (by simp) with h | h | h
        · exact h
        · exact absurd h hcs
        · rcases hc with rfl | rfl | rfl <;> simp at h
      subst hcm
      refine ⟨k, c, rest, hk, hc, rfl, fun d hd => hm d (by simp [hd]), ?_⟩
      obtain ⟨m', hm', h3, h4⟩ := hs.one
      have hmm : m' = c := by
        apply Classical.byContradiction
        intro hne
        have : (c :: rest).count m' = 0 := by
          rw [List.count_eq_zero]
          intro hmem
          rcases hm m' hmem with h | h | h
          · exact hne h
          · subst h; simp at hm'
          · subst h; simp at hm'
        omega
      subst hmm
      rw [List.count_cons_self] at h3
      omega

/-- **C31.** Every thematic break line of CommonMark is accepted as a style. -/
theorem c31_complete (s : List Char) (h : IsThematicBreak s) : thematicBreakStyleNew s = some s := by
  obtain ⟨k, m, rest, hk, hm, rfl, hr, hc⟩ := h
  rw [styleNew_iff]
  refine ⟨rfl, ?_, m, hm, ?_, ?_⟩
  · intro c hmem
    have : c ∈ List.replicate k ' ' ++ m :: rest := trim_mem hmem
    simp only [List.mem_append, List.mem_replicate, List.mem_cons] at this
    rcases this with ⟨_, rfl⟩ | rfl | h
    · simp
    · rcases hm with rfl | rfl | rfl <;> simp
    · rcases hr c h with rfl | rfl | rfl
      · rcases hm with rfl | rfl | rfl <;> simp
      · simp
      · simp
  · rw [List.count_append, List.count_cons_self]
    omega
  · intro m' hm' hne
    have : (List.replicate k ' ' ++ m :: rest).count m' = 0 := by
      rw [List.count_eq_zero]
      intro hmem
      simp only [List.mem_append, List.mem_replicate, List.mem_cons] at hmem
      rcases hmem with ⟨_, rfl⟩ | rfl | h
      · simp at hm'
      · exact hne rfl
      · rcases hr m' h with rfl | rfl | rfl
        · exact hne rfl
        · simp at hm'
        · simp at hm'
    omega

/-- **C31.** The line written for a thematic break outside of block quotes, with options from a
valid configuration whose style has one kind of marker and no white space around it, is a
thematic break again. Missing: other styles, see the counterexamples. -/
theorem c31_written_partial (cx : Cx) (p : Pos) (kids : List Node) (nb : Bool) (st : St)
    (ho : OptionsOk cx.opts) (hq : st.inBlockQuote = false)
    (ht : trim cx.opts.thematicBreakStyle = cx.opts.thematicBreakStyle)
    (hm : ∃ m, ∀ c ∈ cx.opts.thematicBreakStyle, c = m ∨ c = ' ' ∨ c = '\t') :
    ∃ line, (ser cx (.mk .thematicBreak p kids) nb st).output = st.output ++ line ++ ['\n'] ∧
      IsThematicBreak line := by
  refine ⟨List.replicate cx.opts.thematicBreakLeadingSpaces ' ' ++ cx.opts.thematicBreakStyle, ?_, ?_⟩
  · simp [ser, dispatch, serThematicBreak, hq, St.push, spaces]
  · exact (c31_break_partial _ _ _ ((styleNew_iff _ _).mpr ⟨rfl, ho.style⟩) ho.breakSpaces ht).mpr hm

example : (formatDoc codeCx (exDoc [.mk .thematicBreak ⟨1, 1, 1, 3⟩ []])).output =
    "   ".toList ++ (List.replicate 36 "- ".toList).flatten ++ "-\n".toList := by decide +kernel

/-! ### C32: the layers -/

/-- **C32.** Each setting has the value of the last of the files that sets it, and the default
if none does. The files are, in this order, the system's, the legacy file of the user, the
user's, the project's; only the last if it sets `no_inherit`. -/
theorem c32_fields (w : Places) (start : Path) (c : Config) (pr : Option Path)
    (h : loadCascading w start = some (c, pr)) :
    ∃ layers : List (Option ConfigLayer),
      layers = (if (layerAt w pr).any (·.noInherit) then [] else (lowerPaths w).map (layerAt w)) ++
        [layerAt w pr] ∧
      c.lineWidth = lastSet (layers.map (·.bind (·.lineWidth))) 80 ∧
      c.includes = lastSet (layers.map (·.bind (·.includes))) [] ∧
      c.excludes = lastSet (layers.map (·.bind (·.excludes))) [] ∧
      c.gitAware = lastSet (layers.map (·.bind (·.gitAware))) true ∧
      c.heading = lastSet (layers.map (·.bind (·.heading))) {} ∧
      c.unorderedList = lastSet (layers.map (·.bind (·.unorderedList))) {} ∧
      c.orderedList = lastSet (layers.map (·.bind (·.orderedList))) {} ∧
      c.codeBlock = lastSet (layers.map (·.bind (·.codeBlock))) {} ∧
      c.thematicBreak = lastSet (layers.map (·.bind (·.thematicBreak))) {} ∧
      c.punctuation = lastSet (layers.map (·.bind (·.punctuation))) {} := by
  obtain ⟨system, legacy, xdg, project, h1, h2, h3, h4, h5, rfl⟩ := loadCascading_spec h
  refine ⟨_, rfl, ?_⟩
  have hp : layerAt w pr = project.map (·.2) := by
    rw [h5]
    cases project with
    | none => rfl
    | some pl =>
      obtain ⟨p, l⟩ := pl
      obtain ⟨_, _, t, ht, hl⟩ := (discoverGo_spec w _ h4).1 p l rfl
      show ((w.config p).bind id).bind readLayer = some l
      rw [ht]
      exact hl
  have hl : (lowerPaths w).map (layerAt w) = [system, legacy, xdg] := by
    rw [tryLoadLayer_eq h1, loadLegacy_eq h2, loadXdg_eq h3]
    rfl
  have key : cascadeLayers system legacy xdg project =
      ((if (layerAt w pr).any (·.noInherit) then [] else (lowerPaths w).map (layerAt w)) ++
        [layerAt w pr]).filterMap id := by
    rw [hp, hl]
    have e : system.toList ++ legacy.toList ++ xdg.toList = [system, legacy, xdg].filterMap id := by
      cases system <;> cases legacy <;> cases xdg <;> rfl
    cases project with
    | none => cases system <;> cases legacy <;> cases xdg <;> rfl
    | some pl =>
      obtain ⟨p, l⟩ := pl
      rw [List.filterMap_append, cascadeLayers, e]
      show (if l.noInherit = true then _ else _) ++ _ = List.filterMap id (if l.noInherit = true then _ else _) ++ _
      split <;> rfl
  rw [key]
  simp only [← lastSet_filterMap]
  refine ⟨?_, ?_, ?_, ?_, ?_, ?_, ?_, ?_, ?_, ?_⟩
  · exact foldl_lastSet _ (·.lineWidth) (fun _ _ => rfl) _
  · exact foldl_lastSet _ (·.includes) (fun _ _ => rfl) _
  · exact foldl_lastSet _ (·.excludes) (fun _ _ => rfl) _
  · exact foldl_lastSet _ (·.gitAware) (fun _ _ => rfl) _
  · exact foldl_lastSet _ (·.heading) (fun _ _ => rfl) _
  · exact foldl_lastSet _ (·.unorderedList) (fun _ _ => rfl) _
  · exact foldl_lastSet _ (·.orderedList) (fun _ _ => rfl) _
  · exact foldl_lastSet _ (·.codeBlock) (fun _ _ => rfl) _
  · exact foldl_lastSet _ (·.thematicBreak) (fun _ _ => rfl) _
  · exact foldl_lastSet _ (·.punctuation) (fun _ _ => rfl) _

/-- **C32.** Loading fails exactly if one of the files, that of the project or one of the others,
exists and is broken. -/
theorem c32_fails (w : Places) (start : Path) :
    loadCascading w start = none ↔
      ∃ p, (some p ∈ lowerPaths w ∨ IsProjectFile w start p) ∧ Broken w p := by
  have h1 := @tryLoadLayer_none w systemPath
  have h2 : loadLegacy w = none ↔ ∃ p, w.home.map (· ++ [configFileName]) = some p ∧ Broken w p := by
    rw [loadLegacy]
    cases w.home with
    | none => simp
    | some hd =>
      show tryLoadLayer w _ = none ↔ _
      rw [tryLoadLayer_none]
      simp
  have h3 : loadXdg w = none ↔
      ∃ p, w.configDir.map (· ++ ["hongdown".toList, "config.toml".toList]) = some p ∧ Broken w p := by
    rw [loadXdg]
    cases w.configDir with
    | none => simp
    | some hd =>
      show tryLoadLayer w _ = none ↔ _
      rw [tryLoadLayer_none]
      simp
  have h4 : discoverProject w start = none ↔ ∃ p, IsProjectFile w start p ∧ Broken w p := by
    have := discoverGo_none w start.reverse
    rw [List.reverse_reverse] at this
    exact this
  have key : loadCascading w start = none ↔ tryLoadLayer w systemPath = none ∨ loadLegacy w = none ∨
      loadXdg w = none ∨ discoverProject w start = none := by
    simp only [loadCascading, Option.bind_eq_bind]
    cases tryLoadLayer w systemPath <;> cases loadLegacy w <;> cases loadXdg w <;>
      cases discoverProject w start <;> simp
  rw [key, h1, h2, h3, h4]
  simp only [lowerPaths, List.mem_cons, List.not_mem_nil, or_false]
  constructor
  · rintro (h | ⟨p, e, h⟩ | ⟨p, e, h⟩ | ⟨p, e, h⟩)
    · exact ⟨systemPath, .inl (.inl rfl), h⟩
    · exact ⟨p, .inl (.inr (.inl e.symm)), h⟩
    · exact ⟨p, .inl (.inr (.inr e.symm)), h⟩
    · exact ⟨p, .inr e, h⟩
  · rintro ⟨p, (e | e | e) | e, h⟩
    · cases e; exact .inl h
    · exact .inr (.inl ⟨p, e.symm, h⟩)
    · exact .inr (.inr (.inl ⟨p, e.symm, h⟩))
    · exact .inr (.inr (.inr ⟨p, e, h⟩))

/-- A user `/h` with files for the system, the two user locations and a project in `/p`. -/
def exPlaces (system legacy xdg project : Option (List (List Char × Toml))) : Places where
  config := fun p =>
    if p = ["etc".toList, "hongdown".toList, "config.toml".toList] then system.map some
    else if p = ["h".toList, ".hongdown.toml".toList] then legacy.map some
    else if p = ["h".toList, ".config".toList, "hongdown".toList, "config.toml".toList] then xdg.map some
    else if p = ["p".toList, ".hongdown.toml".toList] then project.map some
    else none
  home := some ["h".toList]
  configDir := some ["h".toList, ".config".toList]

/-- A file with just a line width. -/
def exWidth (n : Int) : List (List Char × Toml) := [("line_width".toList, .int n)]

example : (loadCascading (exPlaces (some (exWidth 50)) (some (exWidth 60)) (some (exWidth 70)) none) ["p".toList]).map
    (·.1.lineWidth) = some 70 := by decide +kernel

example : (loadCascading (exPlaces (some (exWidth 50)) (some (exWidth 60)) none
    (some [("no_inherit".toList, .bool true)])) ["p".toList, "src".toList]).map
    (fun r => (r.1.lineWidth, r.2)) = some (80, some ["p".toList, ".hongdown.toml".toList]) := by decide +kernel

/-- **C32.** The documented meaning of `no_inherit`, that the other files have no effect, is
false: a broken one makes loading fail. -/
theorem c32_no_inherit_false : ¬ ∀ (w w' : Places) (start p : Path) (l : ConfigLayer),
    IsProjectFile w start p → layerAt w (some p) = some l → l.noInherit = true →
    (∀ dir, w'.config (dir ++ [".hongdown.toml".toList]) = w.config (dir ++ [".hongdown.toml".toList])) →
    loadCascading w' start = loadCascading w start := by
  intro h
  have := h (exPlaces none none none (some [("no_inherit".toList, .bool true)]))
    (exPlaces (some (exWidth 5)) none none (some [("no_inherit".toList, .bool true)]))
    ["p".toList] ["p".toList, ".hongdown.toml".toList] { noInherit := true }
    ⟨["p".toList], [], rfl, rfl, by decide +kernel, by
      intro b1 b2 e hne
      simp at e
      exact absurd e.1 hne⟩ (by decide +kernel) rfl
    (by
      intro dir
      have hne : dir ++ [".hongdown.toml".toList] ≠ ["etc".toList, "hongdown".toList, "config.toml".toList] := by
        intro e
        have := congrArg List.getLast? e
        rw [List.getLast?_append, show [".hongdown.toml".toList].getLast? = some ".hongdown.toml".toList from rfl,
          Option.some_or] at this
        revert this
        decide +kernel
      simp only [exPlaces, if_neg hne])
  revert this
  decide +kernel

/-- **C32.** With readable files `no_inherit` does what it says: only the project's file
matters. Missing: broken files. -/
theorem c32_no_inherit_partial (w w' : Places) (start : Path) (p : Path) (c c' : Config) (pr' : Option Path)
    (h : loadCascading w start = some (c, some p)) (h' : loadCascading w' start = some (c', pr'))
    (hl : (layerAt w (some p)).any (·.noInherit) = true)
    (hw : ∀ dir, w'.config (dir ++ [".hongdown.toml".toList]) = w.config (dir ++ [".hongdown.toml".toList])) :
    c' = c ∧ pr' = some p := by
  obtain ⟨system, legacy, xdg, project, h1, h2, h3, h4, h5, rfl⟩ := loadCascading_spec h
  obtain ⟨system', legacy', xdg', project', h1', h2', h3', h4', h5', rfl⟩ := loadCascading_spec h'
  have hd : ∀ rev, discoverGo w' rev = discoverGo w rev := by
    intro rev
    induction rev with
    | nil =>
      rw [discoverGo, discoverGo]
      have := hw []
      rw [List.nil_append] at this
      show (match w'.config [".hongdown.toml".toList] with | some t => _ | none => _) = _
      rw [this]
      rfl
    | cons a as ih =>
      rw [discoverGo, discoverGo]
      have := hw (a :: as).reverse
      show (match w'.config ((a :: as).reverse ++ [".hongdown.toml".toList]) with | some t => _ | none => _) = _
      rw [this, ih]
      rfl
  have e : project' = project := by
    rw [discoverProject, hd] at h4'
    rw [discoverProject, h4'] at h4
    cases h4
    rfl
  subst e
  cases project' with
  | none => cases h5
  | some pl =>
    obtain ⟨q, l⟩ := pl
    obtain ⟨_, _, t, ht, hlt⟩ := (discoverGo_spec w _ h4).1 q l rfl
    have e5 : p = q := by cases h5; rfl
    subst e5
    have : layerAt w (some p) = some l := by
      show ((w.config p).bind id).bind readLayer = some l
      rw [ht]
      exact hlt
    rw [this] at hl
    have hl' : l.noInherit = true := hl
    refine ⟨?_, h5'⟩
    simp only [cascadeLayers, hl', if_true]

/-- **C32.** The documented order is false below the home directory: without a file of its own a
project takes the legacy file of the user for the project's, which then wins over the
user's other file. -/
theorem c32_order_false : ¬ ∀ (w : Places) (start : Path) (c : Config) (pr : Option Path) (l : ConfigLayer) (n : Nat),
    loadCascading w start = some (c, pr) →
    (∀ dir below, start = dir ++ below → w.home ≠ some dir → w.config (dir ++ [".hongdown.toml".toList]) = none) →
    layerAt w (w.configDir.map (· ++ ["hongdown".toList, "config.toml".toList])) = some l →
    l.lineWidth = some n → c.lineWidth = n := by
  intro h
  have := h (exPlaces none (some (exWidth 60)) (some (exWidth 70)) none) ["h".toList, "work".toList]
    { lineWidth := 60 } (some ["h".toList, ".hongdown.toml".toList]) { lineWidth := some 70 } 70
    (by decide +kernel) (by
      intro dir below e hne
      have : dir = [] ∨ dir = ["h".toList] ∨ dir = ["h".toList, "work".toList] := by
        match dir, e with
        | [], _ => exact .inl rfl
        | [a], e => simp at e; exact .inr (.inl (by rw [← e.1]; rfl))
        | [a, b], e => simp at e; exact .inr (.inr (by rw [← e.1, ← e.2.1]; rfl))
        | a :: b :: c :: d, e => simp at e
      rcases this with rfl | rfl | rfl
      · decide +kernel
      · exact absurd rfl hne
      · decide +kernel) (by decide +kernel) rfl
  revert this
  decide +kernel

/-! ### C33: settings within a section -/

/-- **C33.** The claim is false: a project that sets one key of a section resets the others. -/
theorem c33_inherit_false : ¬ ∀ (system project heading : List (List Char × Toml)) (r r' : Config × Option Path),
    project.lookup "heading".toList = some (.table heading) → heading.lookup "sentence_case".toList = none →
    loadCascading (exPlaces (some system) none none (some project)) ["p".toList] = some r →
    loadCascading (exPlaces (some system) none none none) ["p".toList] = some r' →
    r.1.heading.sentenceCase = r'.1.heading.sentenceCase := by
  intro h
  have := h [("heading".toList, .table [("sentence_case".toList, .bool true)])]
    [("heading".toList, .table [("setext_h1".toList, .bool false)])] [("setext_h1".toList, .bool false)]
    ({ heading := { setextH1 := false } }, some ["p".toList, ".hongdown.toml".toList])
    ({ heading := { sentenceCase := true } }, none) (by rfl) (by decide +kernel) (by decide +kernel) (by decide +kernel)
  revert this
  decide +kernel

/-- **C33.** What does hold: sections and settings that a file does not mention stay as they were,
and a section that it does mention depends on nothing else. -/
theorem c33_sections_partial (t : List (List Char × Toml)) (l : ConfigLayer) (base base' : Config)
    (h : readLayer t = some l) :
    (t.lookup "line_width".toList = none → (mergeOver l base).lineWidth = base.lineWidth) ∧
    (t.lookup "include".toList = none → (mergeOver l base).includes = base.includes) ∧
    (t.lookup "exclude".toList = none → (mergeOver l base).excludes = base.excludes) ∧
    (t.lookup "git_aware".toList = none → (mergeOver l base).gitAware = base.gitAware) ∧
    (t.lookup "heading".toList = none → (mergeOver l base).heading = base.heading) ∧
    (t.lookup "unordered_list".toList = none → (mergeOver l base).unorderedList = base.unorderedList) ∧
    (t.lookup "ordered_list".toList = none → (mergeOver l base).orderedList = base.orderedList) ∧
    (t.lookup "code_block".toList = none → (mergeOver l base).codeBlock = base.codeBlock) ∧
    (t.lookup "thematic_break".toList = none → (mergeOver l base).thematicBreak = base.thematicBreak) ∧
    (t.lookup "punctuation".toList = none → (mergeOver l base).punctuation = base.punctuation) ∧
    (∀ v, t.lookup "heading".toList = some v →
      readHeading v = some (mergeOver l base).heading ∧ (mergeOver l base).heading = (mergeOver l base').heading) ∧
    (∀ v, t.lookup "punctuation".toList = some v →
      readPunctuation v = some (mergeOver l base).punctuation ∧
        (mergeOver l base).punctuation = (mergeOver l base').punctuation) := by
  simp only [readLayer, Option.bind_eq_bind, Option.bind_eq_some_iff] at h
  obtain ⟨ni, _, lw, hlw, inc, hinc, exc, hexc, ga, hga, hd, hhd, ul, hul, ol, hol, cb, hcb, tb, htb, p, hp, e⟩ := h
  cases e
  refine ⟨?_, ?_, ?_, ?_, ?_, ?_, ?_, ?_, ?_, ?_, ?_, ?_⟩
  case _ => intro hn; rw [fieldO, hn] at hlw; cases hlw; rfl
  case _ => intro hn; rw [fieldO, hn] at hinc; cases hinc; rfl
  case _ => intro hn; rw [fieldO, hn] at hexc; cases hexc; rfl
  case _ => intro hn; rw [fieldO, hn] at hga; cases hga; rfl
  case _ => intro hn; rw [fieldO, hn] at hhd; cases hhd; rfl
  case _ => intro hn; rw [fieldO, hn] at hul; cases hul; rfl
  case _ => intro hn; rw [fieldO, hn] at hol; cases hol; rfl
  case _ => intro hn; rw [fieldO, hn] at hcb; cases hcb; rfl
  case _ => intro hn; rw [fieldO, hn] at htb; cases htb; rfl
  case _ => intro hn; rw [fieldO, hn] at hp; cases hp; rfl
  case _ =>
    intro v hn
    rw [fieldO, hn] at hhd
    have hhd' : (readHeading v).map some = some hd := hhd
    rw [Option.map_eq_some_iff] at hhd'
    obtain ⟨y, hy, rfl⟩ := hhd'
    exact ⟨hy, rfl⟩
  case _ =>
    intro v hn
    rw [fieldO, hn] at hp
    have hp' : (readPunctuation v).map some = some p := hp
    rw [Option.map_eq_some_iff] at hp'
    obtain ⟨y, hy, rfl⟩ := hp'
    exact ⟨hy, rfl⟩

/-! ### C66: `--config` -/

/-- **C66.** With `--config` only that file matters, and each of its settings is read from it or
has its default. -/
theorem c66_explicit (w w' : Places) (cwd p : Path) (h : w'.config p = w.config p) :
    loadConfig w' cwd (some p) = loadConfig w cwd (some p) ∧
    ∀ t c, w.config p = some (some t) → readConfig t = some c →
      loadConfig w cwd (some p) = (c, p.dropLast, false) := by
  constructor
  · simp only [loadConfig, h]
  · intro t c ht hc
    simp only [loadConfig, ht, Option.bind_some, id, hc]

example : loadConfig (exPlaces (some (exWidth 50)) (some (exWidth 60)) none (some (exWidth 90)))
    ["p".toList] (some ["h".toList, ".hongdown.toml".toList]) = ({ lineWidth := 60 }, ["h".toList], false) := by
  decide +kernel

/-- **C66.** An explicit file and the same file found by the search give the same settings, if
there are no others. -/
theorem c66_same (w : Places) (start p : Path) (c : Config) (hp : IsProjectFile w start p)
    (hlow : ∀ q, some q ∈ lowerPaths w → w.config q = none)
    (h : loadConfig w start (some p) = (c, p.dropLast, false)) :
    loadConfig w start none = (c, p.dropLast, false) := by
  have hlow' : ∀ q, some q ∈ lowerPaths w → tryLoadLayer w q = some none := by
    intro q hq
    rw [tryLoadLayer, hlow q hq]
  have h1 : tryLoadLayer w systemPath = some none := hlow' _ (List.mem_cons_self ..)
  have h2 : loadLegacy w = some none := by
    rw [loadLegacy]
    cases hh : w.home with
    | none => rfl
    | some hd =>
      apply hlow'
      rw [lowerPaths, hh]
      exact List.mem_cons_of_mem _ (List.mem_cons_self ..)
  have h3 : loadXdg w = some none := by
    rw [loadXdg]
    cases hh : w.configDir with
    | none => rfl
    | some hd =>
      apply hlow'
      rw [lowerPaths, hh]
      exact List.mem_cons_of_mem _ (List.mem_cons_of_mem _ (List.mem_cons_self ..))
  have h4 := discoverGo_at w start.reverse p (by rw [List.reverse_reverse]; exact hp)
  simp only [loadConfig] at h
  cases ht : w.config p with
  | none => rw [ht] at h; simp at h
  | some t =>
    cases t with
    | none => rw [ht] at h; simp at h
    | some t =>
      rw [ht] at h h4
      simp only [Option.bind_some, id, readConfig_eq, layerFromFile] at h h4
      cases hr : readLayer t with
      | none => rw [hr] at h; simp at h
      | some l =>
        rw [hr] at h h4
        simp only [Option.map_some, Prod.mk.injEq, and_true] at h h4
        simp only [loadConfig, loadCascading, h1, h2, h3, discoverProject, h4, Option.bind_eq_bind,
          Option.bind_some, Option.toList, List.append_nil, ite_self, List.nil_append, List.foldl, h,
          Option.map_some, Option.getD_some]

/-! ### C67: the file of a project -/

/-- **C67.** The project's file is the one in the nearest directory, from the current one upwards,
that has one; and there is none only if no directory up to the root has one. -/
theorem c67_nearest (w : Places) (start : Path) (c : Config) (pr : Option Path)
    (h : loadCascading w start = some (c, pr)) :
    (∀ p, pr = some p ↔ IsProjectFile w start p) ∧
    (pr = none ↔ ∀ dir below, start = dir ++ below → w.config (dir ++ [".hongdown.toml".toList]) = none) := by
  obtain ⟨system, legacy, xdg, project, h1, h2, h3, h4, h5, rfl⟩ := loadCascading_spec h
  obtain ⟨k1, k2⟩ := discoverGo_spec w _ h4
  rw [List.reverse_reverse] at k1 k2
  have hnone : pr = none → ∀ dir below, start = dir ++ below → w.config (dir ++ [".hongdown.toml".toList]) = none := by
    intro e
    apply k2
    rw [e] at h5
    cases project with
    | none => rfl
    | some x => cases h5
  have hsome : ∀ p, pr = some p → IsProjectFile w start p := by
    intro p e
    rw [e] at h5
    cases project with
    | none => cases h5
    | some x => cases h5; exact (k1 _ _ rfl).2.1
  constructor
  · intro p
    refine ⟨hsome p, ?_⟩
    intro hp
    cases hpr : pr with
    | none =>
      obtain ⟨dir, below, e, rfl, hs, _⟩ := hp
      rw [hnone hpr dir below e] at hs
      cases hs
    | some q => rw [isProjectFile_unique (hsome q hpr) hp]
  · refine ⟨hnone, ?_⟩
    intro hn
    cases hpr : pr with
    | none => rfl
    | some q =>
      obtain ⟨dir, below, e, rfl, hs, _⟩ := hsome q hpr
      rw [hn dir below e] at hs
      cases hs

example : (loadCascading (exPlaces none none none (some (exWidth 90))) ["p".toList, "a".toList, "b".toList]).map
    (·.2) = some (some ["p".toList, ".hongdown.toml".toList]) := by decide +kernel

end Hongdown.Props
