import Verif.Spec.Defaults

/-!
# Lemmas for C98: reading documented values
-/

namespace Hongdown.Model
open Spec

theorem lookup_at {k : List Char} {v : Toml} : ∀ {l : TomlTable} (i : Nat), (l.map (·.1)).findIdx? (k == ·) = some i →
    (l[i]?).map (·.2) = some v → l.lookup k = some v
  | [], i, h, _ => by cases h
  | (a, b) :: l, i, h, e => by
    rw [List.map_cons, List.findIdx?_cons] at h
    cases hk : k == a with
    | true =>
      rw [hk] at h
      cases h
      simpa [List.lookup_cons, hk] using e
    | false =>
      rw [hk] at h
      simp only [Bool.false_eq_true, if_false, Option.map_eq_some_iff] at h
      obtain ⟨j, hj, rfl⟩ := h
      rw [List.lookup_cons, hk]
      exact lookup_at j hj (by simpa using e)

theorem fieldD_agrees {α : Type} {doc t : TomlTable} {key : String} {read : Toml → Option α} {x : α} {d : Toml}
    (h : AgreesWith doc t) (hd : doc.lookup key.toList = some d) (hr : read d = some x) :
    fieldD t key read x = some x := by
  unfold fieldD
  cases e : t.lookup key.toList with
  | none => rfl
  | some v => rw [h _ v d e hd]; exact hr

theorem fieldD_doc {α : Type} {t : TomlTable} {key : String} {read : Toml → Option α} {x : α} {d : Toml}
    (h : SaysDefaults t) (hd : readmeConfig.lookup key.toList = some d)
    (hr : ∀ v, (v = d ∨ ∃ dt vt, d = .table dt ∧ v = .table vt ∧ AgreesWith dt vt) → read v = some x) :
    fieldD t key read x = some x := by
  unfold fieldD
  cases e : t.lookup key.toList with
  | none => rfl
  | some v => exact hr v (h _ v d e hd)

theorem fieldO_doc {α : Type} {t : TomlTable} {key : String} {read : Toml → Option α} {x : α} {d : Toml}
    (h : SaysDefaults t) (hd : readmeConfig.lookup key.toList = some d)
    (hr : ∀ v, (v = d ∨ ∃ dt vt, d = .table dt ∧ v = .table vt ∧ AgreesWith dt vt) → read v = some x) :
    fieldO t key read = some none ∨ fieldO t key read = some (some x) := by
  unfold fieldO
  cases e : t.lookup key.toList with
  | none => exact Or.inl rfl
  | some v => right; simp [hr v (h _ v d e hd)]

theorem plain_doc {α : Type} {read : Toml → Option α} {x : α} {d : Toml} (hd : ∀ t, d ≠ .table t)
    (hr : read d = some x) :
    ∀ v, (v = d ∨ ∃ dt vt, d = .table dt ∧ v = .table vt ∧ AgreesWith dt vt) → read v = some x := by
  rintro v (rfl | ⟨dt, _, rfl, _⟩)
  · exact hr
  · exact absurd rfl (hd dt)

theorem agrees_refl (t : TomlTable) : AgreesWith t t := by
  intro k v d h1 h2
  rw [h1] at h2
  exact Option.some.inj h2

theorem section_doc {α : Type} {read : Toml → Option α} {x : α} {t : TomlTable}
    (hr : ∀ vt, AgreesWith t vt → read (.table vt) = some x) :
    ∀ v, (v = .table t ∨ ∃ dt vt, Toml.table t = .table dt ∧ v = .table vt ∧ AgreesWith dt vt) → read v = some x := by
  rintro v (rfl | ⟨dt, vt, e, rfl, h⟩)
  · exact hr t (agrees_refl t)
  · cases e
    exact hr vt h

/-- The section `heading` of the documentation. -/
def readHeadingDoc : TomlTable :=
  [("setext_h1".toList, .bool true), ("setext_h2".toList, .bool true), ("sentence_case".toList, .bool false), ("proper_nouns".toList, .arr []), ("common_nouns".toList, .arr [])]

theorem readHeading_doc {vt : TomlTable} (h : AgreesWith readHeadingDoc vt) : readHeading (.table vt) = some {} := by
  simp only [readHeading, Toml.table?, Option.bind_eq_bind, Option.bind_some]
  rw [fieldD_agrees h (d := .bool true) (lookup_at 0 (by decide +kernel) rfl) (by first | rfl | decide +kernel), Option.bind_some]
  rw [fieldD_agrees h (d := .bool true) (lookup_at 1 (by decide +kernel) rfl) (by first | rfl | decide +kernel), Option.bind_some]
  rw [fieldD_agrees h (d := .bool false) (lookup_at 2 (by decide +kernel) rfl) (by first | rfl | decide +kernel), Option.bind_some]
  rw [fieldD_agrees h (d := .arr []) (lookup_at 3 (by decide +kernel) rfl) (by first | rfl | decide +kernel), Option.bind_some]
  rw [fieldD_agrees h (d := .arr []) (lookup_at 4 (by decide +kernel) rfl) (by first | rfl | decide +kernel), Option.bind_some]

/-- The section `unordered_list` of the documentation. -/
def readUnorderedListDoc : TomlTable :=
  [("unordered_marker".toList, .str "-".toList), ("leading_spaces".toList, .int 1), ("trailing_spaces".toList, .int 2), ("indent_width".toList, .int 4)]

theorem readUnorderedList_doc {vt : TomlTable} (h : AgreesWith readUnorderedListDoc vt) : readUnorderedList (.table vt) = some {} := by
  simp only [readUnorderedList, Toml.table?, Option.bind_eq_bind, Option.bind_some]
  rw [fieldD_agrees h (d := .str "-".toList) (lookup_at 0 (by decide +kernel) rfl) (by first | rfl | decide +kernel), Option.bind_some]
  rw [fieldD_agrees h (d := .int 1) (lookup_at 1 (by decide +kernel) rfl) (by first | rfl | decide +kernel), Option.bind_some]
  rw [fieldD_agrees h (d := .int 2) (lookup_at 2 (by decide +kernel) rfl) (by first | rfl | decide +kernel), Option.bind_some]
  rw [fieldD_agrees h (d := .int 4) (lookup_at 3 (by decide +kernel) rfl) (by first | rfl | decide +kernel), Option.bind_some]

/-- The section `ordered_list` of the documentation. -/
def readOrderedListDoc : TomlTable :=
  [("odd_level_marker".toList, .str ".".toList), ("even_level_marker".toList, .str ")".toList), ("pad".toList, .str "start".toList), ("indent_width".toList, .int 4)]

theorem readOrderedList_doc {vt : TomlTable} (h : AgreesWith readOrderedListDoc vt) : readOrderedList (.table vt) = some {} := by
  simp only [readOrderedList, Toml.table?, Option.bind_eq_bind, Option.bind_some]
  rw [fieldD_agrees h (d := .str ".".toList) (lookup_at 0 (by decide +kernel) rfl) (by first | rfl | decide +kernel), Option.bind_some]
  rw [fieldD_agrees h (d := .str ")".toList) (lookup_at 1 (by decide +kernel) rfl) (by first | rfl | decide +kernel), Option.bind_some]
  rw [fieldD_agrees h (d := .str "start".toList) (lookup_at 2 (by decide +kernel) rfl) (by first | rfl | decide +kernel), Option.bind_some]
  rw [fieldD_agrees h (d := .int 4) (lookup_at 3 (by decide +kernel) rfl) (by first | rfl | decide +kernel), Option.bind_some]

/-- The section `code_block` of the documentation. -/
def readCodeBlockDoc : TomlTable :=
  [("fence_char".toList, .str "~".toList), ("min_fence_length".toList, .int 4), ("space_after_fence".toList, .bool true), ("default_language".toList, .str []), ("formatters".toList, .table [])]

theorem readCodeBlock_doc {vt : TomlTable} (h : AgreesWith readCodeBlockDoc vt) : readCodeBlock (.table vt) = some {} := by
  simp only [readCodeBlock, Toml.table?, Option.bind_eq_bind, Option.bind_some]
  rw [fieldD_agrees h (d := .str "~".toList) (lookup_at 0 (by decide +kernel) rfl) (by first | rfl | decide +kernel), Option.bind_some]
  rw [fieldD_agrees h (d := .int 4) (lookup_at 1 (by decide +kernel) rfl) (by first | rfl | decide +kernel), Option.bind_some]
  rw [fieldD_agrees h (d := .bool true) (lookup_at 2 (by decide +kernel) rfl) (by first | rfl | decide +kernel), Option.bind_some]
  rw [fieldD_agrees h (d := .str []) (lookup_at 3 (by decide +kernel) rfl) (by first | rfl | decide +kernel), Option.bind_some]
  rw [fieldD_agrees h (d := .table []) (lookup_at 4 (by decide +kernel) rfl) (by first | rfl | decide +kernel), Option.bind_some]

/-- The section `thematic_break` of the documentation. -/
def readThematicBreakDoc : TomlTable :=
  [("style".toList, .str "- - - - - - - - - - - - - - - - - - - - - - - - - - - - - - - - - - - - -".toList), ("leading_spaces".toList, .int 3)]

theorem readThematicBreak_doc {vt : TomlTable} (h : AgreesWith readThematicBreakDoc vt) : readThematicBreak (.table vt) = some {} := by
  simp only [readThematicBreak, Toml.table?, Option.bind_eq_bind, Option.bind_some]
  rw [fieldD_agrees h (d := .str "- - - - - - - - - - - - - - - - - - - - - - - - - - - - - - - - - - - - -".toList) (lookup_at 0 (by decide +kernel) rfl) (by first | rfl | decide +kernel), Option.bind_some]
  rw [fieldD_agrees h (d := .int 3) (lookup_at 1 (by decide +kernel) rfl) (by first | rfl | decide +kernel), Option.bind_some]

/-- The section `punctuation` of the documentation. -/
def readPunctuationDoc : TomlTable :=
  [("curly_double_quotes".toList, .bool true), ("curly_single_quotes".toList, .bool true), ("curly_apostrophes".toList, .bool false), ("ellipsis".toList, .bool true), ("en_dash".toList, .bool false), ("em_dash".toList, .str "--".toList)]

theorem readPunctuation_doc {vt : TomlTable} (h : AgreesWith readPunctuationDoc vt) : readPunctuation (.table vt) = some {} := by
  simp only [readPunctuation, Toml.table?, Option.bind_eq_bind, Option.bind_some]
  rw [fieldD_agrees h (d := .bool true) (lookup_at 0 (by decide +kernel) rfl) (by first | rfl | decide +kernel), Option.bind_some]
  rw [fieldD_agrees h (d := .bool true) (lookup_at 1 (by decide +kernel) rfl) (by first | rfl | decide +kernel), Option.bind_some]
  rw [fieldD_agrees h (d := .bool false) (lookup_at 2 (by decide +kernel) rfl) (by first | rfl | decide +kernel), Option.bind_some]
  rw [fieldD_agrees h (d := .bool true) (lookup_at 3 (by decide +kernel) rfl) (by first | rfl | decide +kernel), Option.bind_some]
  rw [fieldD_agrees h (d := .bool false) (lookup_at 4 (by decide +kernel) rfl) (by first | rfl | decide +kernel), Option.bind_some]
  rw [fieldD_agrees h (d := .str "--".toList) (lookup_at 5 (by decide +kernel) rfl) (by first | rfl | decide +kernel), Option.bind_some]

theorem readConfig_doc {t : TomlTable} (h : SaysDefaults t) :
    readConfig t = (fieldD t "no_inherit" Toml.bool? false).map fun b => { noInherit := b } := by
  simp only [readConfig, Option.bind_eq_bind]
  rw [fieldD_doc (x := 80) h (d := .int 80) (lookup_at 3 (by decide +kernel) rfl) (plain_doc (by simp) (by first | rfl | decide +kernel))]
  rw [fieldD_doc (x := []) h (d := .arr []) (lookup_at 0 (by decide +kernel) rfl) (plain_doc (by simp) (by first | rfl | decide +kernel))]
  rw [fieldD_doc (x := []) h (d := .arr []) (lookup_at 1 (by decide +kernel) rfl) (plain_doc (by simp) (by first | rfl | decide +kernel))]
  rw [fieldD_doc (x := true) h (d := .bool true) (lookup_at 2 (by decide +kernel) rfl) (plain_doc (by simp) (by first | rfl | decide +kernel))]
  rw [fieldD_doc h (d := .table readHeadingDoc) (lookup_at 4 (by decide +kernel) rfl) (section_doc fun _ => readHeading_doc)]
  rw [fieldD_doc h (d := .table readUnorderedListDoc) (lookup_at 5 (by decide +kernel) rfl) (section_doc fun _ => readUnorderedList_doc)]
  rw [fieldD_doc h (d := .table readOrderedListDoc) (lookup_at 6 (by decide +kernel) rfl) (section_doc fun _ => readOrderedList_doc)]
  rw [fieldD_doc h (d := .table readCodeBlockDoc) (lookup_at 7 (by decide +kernel) rfl) (section_doc fun _ => readCodeBlock_doc)]
  rw [fieldD_doc h (d := .table readThematicBreakDoc) (lookup_at 8 (by decide +kernel) rfl) (section_doc fun _ => readThematicBreak_doc)]
  rw [fieldD_doc h (d := .table readPunctuationDoc) (lookup_at 9 (by decide +kernel) rfl) (section_doc fun _ => readPunctuation_doc)]
  cases fieldD t "no_inherit" Toml.bool? false <;> rfl

/-- A layer that sets nothing, or the documented defaults. -/
def SetsDefaults (l : ConfigLayer) : Prop := ∀ c : Config, (∃ b, c = { noInherit := b }) → ∃ b, mergeOver l c = { noInherit := b }

theorem readLayer_doc {t : TomlTable} {l : ConfigLayer} (h : SaysDefaults t) (e : readLayer t = some l) : SetsDefaults l := by
  simp only [readLayer, Option.bind_eq_bind, Option.bind_eq_some_iff] at e
  obtain ⟨a1, _, a2, e2, a3, e3, a4, e4, a5, e5, a6, e6, a7, e7, a8, e8, a9, e9, a10, e10, a11, e11, e⟩ := e
  cases e
  have g2 := fieldO_doc (read := fun v => v.nat?.bind lineWidthNew) (x := 80) h (d := .int 80) (key := "line_width") (lookup_at 3 (by decide +kernel) rfl) (plain_doc (by simp) (by first | rfl | decide +kernel))
  rw [e2, Option.some.injEq, Option.some.injEq] at g2
  have g3 := fieldO_doc (read := Toml.strs?) (x := []) h (d := .arr []) (key := "include") (lookup_at 0 (by decide +kernel) rfl) (plain_doc (by simp) (by first | rfl | decide +kernel))
  rw [e3, Option.some.injEq, Option.some.injEq] at g3
  have g4 := fieldO_doc (read := Toml.strs?) (x := []) h (d := .arr []) (key := "exclude") (lookup_at 1 (by decide +kernel) rfl) (plain_doc (by simp) (by first | rfl | decide +kernel))
  rw [e4, Option.some.injEq, Option.some.injEq] at g4
  have g5 := fieldO_doc (read := Toml.bool?) (x := true) h (d := .bool true) (key := "git_aware") (lookup_at 2 (by decide +kernel) rfl) (plain_doc (by simp) (by first | rfl | decide +kernel))
  rw [e5, Option.some.injEq, Option.some.injEq] at g5
  have g6 := fieldO_doc (x := ({} : HeadingConfig)) h (read := readHeading) (d := .table readHeadingDoc) (key := "heading") (lookup_at 4 (by decide +kernel) rfl) (section_doc fun _ => readHeading_doc)
  rw [e6, Option.some.injEq, Option.some.injEq] at g6
  have g7 := fieldO_doc (x := ({} : UnorderedListConfig)) h (read := readUnorderedList) (d := .table readUnorderedListDoc) (key := "unordered_list") (lookup_at 5 (by decide +kernel) rfl) (section_doc fun _ => readUnorderedList_doc)
  rw [e7, Option.some.injEq, Option.some.injEq] at g7
  have g8 := fieldO_doc (x := ({} : OrderedListConfig)) h (read := readOrderedList) (d := .table readOrderedListDoc) (key := "ordered_list") (lookup_at 6 (by decide +kernel) rfl) (section_doc fun _ => readOrderedList_doc)
  rw [e8, Option.some.injEq, Option.some.injEq] at g8
  have g9 := fieldO_doc (x := ({} : CodeBlockConfig)) h (read := readCodeBlock) (d := .table readCodeBlockDoc) (key := "code_block") (lookup_at 7 (by decide +kernel) rfl) (section_doc fun _ => readCodeBlock_doc)
  rw [e9, Option.some.injEq, Option.some.injEq] at g9
  have g10 := fieldO_doc (x := ({} : ThematicBreakConfig)) h (read := readThematicBreak) (d := .table readThematicBreakDoc) (key := "thematic_break") (lookup_at 8 (by decide +kernel) rfl) (section_doc fun _ => readThematicBreak_doc)
  rw [e10, Option.some.injEq, Option.some.injEq] at g10
  have g11 := fieldO_doc (x := ({} : PunctuationConfig)) h (read := readPunctuation) (d := .table readPunctuationDoc) (key := "punctuation") (lookup_at 9 (by decide +kernel) rfl) (section_doc fun _ => readPunctuation_doc)
  rw [e11, Option.some.injEq, Option.some.injEq] at g11
  rintro c ⟨b, rfl⟩
  refine ⟨a1, ?_⟩
  have pick : ∀ {α : Type} {a : Option α} {x : α}, a = none ∨ a = some x → a.getD x = x := by
    rintro α a x (rfl | rfl) <;> rfl
  simp only [mergeOver, pick g2, pick g3, pick g4, pick g5, pick g6, pick g7, pick g8, pick g9, pick g10, pick g11]

end Hongdown.Model
