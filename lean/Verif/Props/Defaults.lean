import Verif.Lemmas.Defaults
import Verif.Props.Config

/-!
# C98: one set of defaults

The library, the program and the JavaScript package have the defaults that the documentation lists.
-/

namespace Hongdown.Props
open Model Spec

/-- **C98.** The library's default options are the documented ones. -/
theorem c98_library : defaultOptions = documented := rfl

/-- The options of a configuration that only says whether it inherits. -/
theorem noInherit_options (b : Bool) : Model.toOptions { noInherit := b } none = some documented := rfl

/-- **C98.** A configuration file that sets any of the documented keys to their documented values,
and that may set keys the documentation does not know, gives the documented options. -/
theorem c98_file (t : List (List Char × Toml)) (h : SaysDefaults t)
    (hi : t.lookup "no_inherit".toList = none ∨ ∃ b, t.lookup "no_inherit".toList = some (.bool b)) :
    ∃ c, readConfig t = some c ∧ c.includes = [] ∧ c.excludes = [] ∧ c.gitAware = true ∧
      Model.toOptions c none = some documented := by
  have e : ∃ b, fieldD t "no_inherit" Toml.bool? false = some b := by
    unfold fieldD
    rcases hi with hi | ⟨b, hi⟩ <;> rw [hi]
    · exact ⟨false, rfl⟩
    · exact ⟨b, rfl⟩
  obtain ⟨b, e⟩ := e
  refine ⟨{ noInherit := b }, ?_, rfl, rfl, rfl, noInherit_options b⟩
  rw [readConfig_doc h, e]
  rfl

theorem fold_defaults : ∀ (ls : List ConfigLayer), (∀ l ∈ ls, SetsDefaults l) → ∀ c : Config,
    (∃ b, c = { noInherit := b }) → ∃ b, ls.foldl (fun config layer => mergeOver layer config) c = { noInherit := b }
  | [], _, _, hc => hc
  | l :: ls, h, c, hc =>
    fold_defaults ls (fun l' hl => h l' (List.mem_cons_of_mem _ hl)) _ (h l List.mem_cons_self c hc)

theorem layer_defaults {w : Places} {p : Path} {r : Option ConfigLayer}
    (h : ∀ p t, w.config p = some (some t) → SaysDefaults t) (e : tryLoadLayer w p = some r) :
    ∀ l ∈ r.toList, SetsDefaults l := by
  intro l hl
  unfold tryLoadLayer at e
  cases hp : w.config p with
  | none => rw [hp] at e; cases e; cases hl
  | some t =>
    rw [hp] at e
    simp only [layerFromFile, Option.map_eq_some_iff, Option.bind_eq_some_iff] at e
    obtain ⟨l', ⟨t', rfl, ht⟩, rfl⟩ := e
    rw [Option.mem_toList, Option.some.injEq] at hl
    subst hl
    exact readLayer_doc (h p t' hp) ht

theorem project_defaults {w : Places} (h : ∀ p t, w.config p = some (some t) → SaysDefaults t) :
    ∀ (cs : List (List Char)) (r : Path × ConfigLayer), discoverGo w cs = some (some r) → SetsDefaults r.2
  | [], r, e => by
    unfold discoverGo at e
    cases hp : w.config [configFileName] with
    | none => rw [hp] at e; cases e
    | some t =>
      rw [hp] at e
      simp only [layerFromFile, Option.map_eq_some_iff, Option.bind_eq_some_iff, Option.some.injEq] at e
      obtain ⟨l', ⟨t', rfl, ht⟩, rfl⟩ := e
      exact readLayer_doc (h _ t' hp) ht
  | c :: cs, r, e => by
    unfold discoverGo at e
    simp only at e
    cases hp : w.config ((c :: cs).reverse ++ [configFileName]) with
    | none => rw [hp] at e; exact project_defaults h cs r e
    | some t =>
      rw [hp] at e
      simp only [layerFromFile, Option.map_eq_some_iff, Option.bind_eq_some_iff, Option.some.injEq] at e
      obtain ⟨l', ⟨t', rfl, ht⟩, rfl⟩ := e
      exact readLayer_doc (h _ t' hp) ht

/-- **C98.** The program formats with the documented options, and looks for the documented files, if
every configuration file there is sets only documented keys to documented values: with no file, with
one of `--config`, with several that are merged, and with files that cannot be read. -/
theorem c98_program (w : Places) (cwd : Path) (explicit : Option Path)
    (h : ∀ p t, w.config p = some (some t) → SaysDefaults t) :
    (loadConfig w cwd explicit).1.includes = [] ∧ (loadConfig w cwd explicit).1.excludes = [] ∧
      (loadConfig w cwd explicit).1.gitAware = true ∧
      Model.toOptions (loadConfig w cwd explicit).1 none = some documented := by
  suffices hs : ∃ b, (loadConfig w cwd explicit).1 = { noInherit := b } by
    obtain ⟨b, e⟩ := hs
    rw [e]
    exact ⟨rfl, rfl, rfl, noInherit_options b⟩
  cases explicit with
  | some path =>
    simp only [loadConfig]
    cases hp : (w.config path).bind id with
    | none => exact ⟨false, rfl⟩
    | some t =>
      obtain ⟨t', hw, ht⟩ := Option.bind_eq_some_iff.mp hp
      cases ht
      rw [Option.bind_some, readConfig_doc (h path t hw)]
      cases fieldD t "no_inherit" Toml.bool? false with
      | none => exact ⟨false, rfl⟩
      | some b => exact ⟨b, rfl⟩
  | none =>
    simp only [loadConfig]
    cases hc : loadCascading w cwd with
    | none => exact ⟨false, rfl⟩
    | some r =>
      simp only [loadCascading, Option.bind_eq_bind, Option.bind_eq_some_iff, Option.some.injEq] at hc
      obtain ⟨system, e1, legacy, e2, xdg, e3, project, e4, e⟩ := hc
      subst e
      have l1 := layer_defaults h e1
      have l2 : ∀ l ∈ legacy.toList, SetsDefaults l := by
        unfold loadLegacy at e2
        cases hw : w.home with
        | none => rw [hw] at e2; cases e2; intro l hl; cases hl
        | some d => rw [hw] at e2; exact layer_defaults h e2
      have l3 : ∀ l ∈ xdg.toList, SetsDefaults l := by
        unfold loadXdg at e3
        cases hw : w.configDir with
        | none => rw [hw] at e3; cases e3; intro l hl; cases hl
        | some d => rw [hw] at e3; exact layer_defaults h e3
      have lower : ∀ l ∈ system.toList ++ legacy.toList ++ xdg.toList, SetsDefaults l := by
        intro l hl
        rcases List.mem_append.mp hl with hl | hl
        · rcases List.mem_append.mp hl with hl | hl
          · exact l1 l hl
          · exact l2 l hl
        · exact l3 l hl
      refine fold_defaults _ ?_ {} ⟨false, rfl⟩
      cases project with
      | none => exact lower
      | some r =>
        intro l hl
        rcases List.mem_append.mp hl with hl | hl
        · cases hn : r.2.noInherit with
          | true => rw [hn] at hl; cases hl
          | false =>
            rw [hn] at hl
            exact lower l hl
        · rw [List.mem_singleton.mp hl]
          exact project_defaults h _ r e4

/-- **C98.** So does the JavaScript package, for options that are missing or have the value its
documentation gives as the default. -/
theorem c98_js (j : JsOptions) (h : SaysJsDefaults j) : j.toOptions = documented := by
  obtain ⟨a1, a2, a3, a4, a5, a6, a7, a8, a9, a10, a11, a12, a13, a14, a15, a16, a17, a18, a19, a20, a21, a22, a23,
    a24, a25, a26⟩ := j
  obtain ⟨h1, h2, h3, h4, h5, h6, h7, h8, h9, h10, h11, h12, h13, h14, h15, h16, h17, h18, h19, h20, h21, h22, h23,
    h24, h25⟩ := h
  simp only [List.mem_cons, List.not_mem_nil, or_false] at *
  have num : ∀ {α : Type} {new : α → Option α} {v : Option α} {d : α}, new d = some d → v = none ∨ v = some d →
      jsChecked new v d = d := by
    rintro α new v d hd (rfl | rfl)
    · rfl
    · simp [jsChecked, hd]
  have pick : ∀ {α : Type} {a : Option α} {x : α}, a = none ∨ a = some x → a.getD x = x := by
    rintro α a x (rfl | rfl) <;> rfl
  unfold JsOptions.toOptions
  simp only [c98_library, documented]
  rw [num (by decide) h1, pick h2, pick h3, pick h4, pick h5, pick h6, num (by decide) h8, num (by decide) h9,
    num (by decide) h10, num (by decide) h13, num (by decide) h15, pick h16, pick h17, num (by decide +kernel) h18,
    num (by decide) h19, pick h20, pick h21, pick h22, pick h23]
  rcases h7 with rfl | rfl <;> rcases h11 with rfl | rfl <;> rcases h12 with rfl | rfl <;> rcases h14 with rfl | rfl <;>
    rcases h24 with rfl | rfl <;> rcases h25 with rfl | rfl <;> rfl

/-- The documented example is read, and so is a file with some of its lines. -/
theorem readme_says : SaysDefaults readmeConfig := by
  intro k v d h1 h2
  rw [h1] at h2
  exact Or.inl (Option.some.inj h2)

example : (readConfig readmeConfig).isSome = true ∧ (readConfig readmeConfig).bind (Model.toOptions · none) = some documented := by
  obtain ⟨c, e, _, _, _, o⟩ := c98_file readmeConfig readme_says (Or.inl (by
    rw [List.lookup_eq_none_iff]
    decide +kernel))
  rw [e]
  exact ⟨rfl, o⟩

example : SaysJsDefaults { lineWidth := some 80, fenceChar := some ['~'] } := by
  constructor <;> decide +kernel

/-- The values matter: another one gives other options. -/
example : ({ fenceChar := some ['`'] } : JsOptions).toOptions ≠ documented := by
  intro h
  have := congrArg Options.fenceChar h
  revert this
  decide

end Hongdown.Props
