import Verif.Lemmas.Settings
import Verif.Props.Config

/-!
# C70: the keys of a configuration file
-/

namespace Hongdown.Props
open Model Spec

/-- **C70.** A file is accepted exactly if every key that is present has a valid value, and then each
key sets its own option. -/
theorem c70_file (t : List (List Char × Toml)) (c : Config) : readConfig t = some c ↔ IsConfig t c := by
  obtain ⟨a, b, d, e, f, g, h, i, j, k, l⟩ := c
  simp only [readConfig, Option.bind_eq_bind, Option.bind_eq_some_iff, fieldD_iff bool_iff,
    fieldD_iff (number_iff width_iff), fieldD_iff strs_iff, fieldD_iff heading_iff, fieldD_iff unorderedList_iff,
    fieldD_iff orderedList_iff, fieldD_iff codeBlock_iff, fieldD_iff thematicBreak_iff, fieldD_iff punctuation_iff,
    Option.some.injEq, Config.mk.injEq]
  constructor
  · rintro ⟨x1, h1, x2, h2, x3, h3, x4, h4, x5, h5, x6, h6, x7, h7, x8, h8, x9, h9, x10, h10, x11, h11,
      rfl, rfl, rfl, rfl, rfl, rfl, rfl, rfl, rfl, rfl, rfl⟩
    exact ⟨h1, h2, h3, h4, h5, h6, h7, h8, h9, h10, h11⟩
  · rintro ⟨h1, h2, h3, h4, h5, h6, h7, h8, h9, h10, h11⟩
    exact ⟨_, h1, _, h2, _, h3, _, h4, _, h5, _, h6, _, h7, _, h8, _, h9, _, h10, _, h11,
      rfl, rfl, rfl, rfl, rfl, rfl, rfl, rfl, rfl, rfl, rfl⟩

/-- **C70.** The same for the files of the cascade. -/
theorem c70_layer (t : List (List Char × Toml)) (c : ConfigLayer) : readLayer t = some c ↔ IsLayer t c := by
  obtain ⟨a, b, d, e, f, g, h, i, j, k, l⟩ := c
  simp only [readLayer, Option.bind_eq_bind, Option.bind_eq_some_iff, fieldD_iff bool_iff, fieldO_iff bool_iff,
    fieldO_iff (number_iff width_iff), fieldO_iff strs_iff, fieldO_iff heading_iff, fieldO_iff unorderedList_iff,
    fieldO_iff orderedList_iff, fieldO_iff codeBlock_iff, fieldO_iff thematicBreak_iff, fieldO_iff punctuation_iff,
    Option.some.injEq, ConfigLayer.mk.injEq]
  constructor
  · rintro ⟨x1, h1, x2, h2, x3, h3, x4, h4, x5, h5, x6, h6, x7, h7, x8, h8, x9, h9, x10, h10, x11, h11,
      rfl, rfl, rfl, rfl, rfl, rfl, rfl, rfl, rfl, rfl, rfl⟩
    exact ⟨h1, h2, h3, h4, h5, h6, h7, h8, h9, h10, h11⟩
  · rintro ⟨h1, h2, h3, h4, h5, h6, h7, h8, h9, h10, h11⟩
    exact ⟨_, h1, _, h2, _, h3, _, h4, _, h5, _, h6, _, h7, _, h8, _, h9, _, h10, _, h11,
      rfl, rfl, rfl, rfl, rfl, rfl, rfl, rfl, rfl, rfl, rfl⟩

/-- **C70.** An empty section is like a missing one. -/
theorem c70_empty (t : List (List Char × Toml)) (name : String)
    (hn : name ∈ ["heading", "unordered_list", "ordered_list", "code_block", "thematic_break", "punctuation"])
    (h : t.lookup name.toList = none) : readConfig (t ++ [(name.toList, .table [])]) = readConfig t := by
  simp only [List.mem_cons, List.not_mem_nil, or_false] at hn
  unfold readConfig
  rcases hn with rfl | rfl | rfl | rfl | rfl | rfl
  all_goals
    repeat rw [fieldD_append _ _ _ _ _ _ (by
      first
        | (left; decide +kernel)
        | (right; exact ⟨h, rfl, by decide +kernel⟩))]

/-- **C70.** Each option of the library is the one of the configuration. -/
theorem c70_options (c : Config) (o : Options) (h : Model.toOptions c none = some o) : IsOptions c o := by
  simp only [Model.toOptions, Option.bind_eq_bind, Option.bind_some, Option.some.injEq] at h
  subst h
  constructor <;> rfl

example : IsConfig exSettings ((readConfig exSettings).getD {}) ∧
    ((readConfig exSettings).getD {}).unorderedList.leadingSpaces = 3 ∧
    readConfig (exSettings ++ [("heading".toList, .table [("setext_h1".toList, .int 1)])]) = none := by
  refine ⟨(c70_file _ _).mp ?_, by decide +kernel, ?_⟩ <;> decide +kernel

end Hongdown.Props
