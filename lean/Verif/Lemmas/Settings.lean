import Verif.Spec.Settings
import Verif.Lemmas.Config

/-!
# Lemmas for reading configuration files
-/

namespace Hongdown.Model
open Spec

theorem fieldD_iff {α : Type} {t : TomlTable} {key : String} {read : Toml → Option α} {d x : α}
    {means : Toml → α → Prop} (h : ∀ v y, read v = some y ↔ means v y) :
    fieldD t key read d = some x ↔ Setting t key means d x := by
  unfold fieldD Setting
  cases e : t.lookup key.toList with
  | none => simp [eq_comm]
  | some v => simp [h]

theorem fieldO_iff {α : Type} {t : TomlTable} {key : String} {read : Toml → Option α} {x : Option α}
    {means : Toml → α → Prop} (h : ∀ v y, read v = some y ↔ means v y) :
    fieldO t key read = some x ↔ Setting t key (fun v x => ∃ n, x = some n ∧ means v n) none x := by
  unfold fieldO Setting
  cases e : t.lookup key.toList with
  | none => simp [eq_comm]
  | some v =>
    simp only [Option.map_eq_some_iff, h]
    constructor
    · rintro ⟨a, h1, h2⟩; exact .inr ⟨v, rfl, a, h2.symm, h1⟩
    · rintro (⟨h1, _⟩ | ⟨w, h1, a, h2, h3⟩)
      · cases h1
      · cases h1; exact ⟨a, h3, h2.symm⟩

theorem bool_iff (v : Toml) (b : Bool) : v.bool? = some b ↔ IsBool v b := by
  cases v <;> simp [Toml.bool?, IsBool]

theorem str_iff (v : Toml) (s : List Char) : v.str? = some s ↔ IsText v s := by
  cases v <;> simp [Toml.str?, IsText]

theorem nat_iff (v : Toml) (n : Nat) : v.nat? = some n ↔ v = .int n := by
  cases v with
  | int i => cases i <;> simp [Toml.nat?] <;> omega
  | _ => simp [Toml.nat?]

theorem number_iff {new : Nat → Option Nat} {ok : Nat → Prop} (h : ∀ n m, new n = some m ↔ m = n ∧ ok n)
    (v : Toml) (n : Nat) : v.nat?.bind new = some n ↔ IsNumber ok v n := by
  rw [Option.bind_eq_some_iff]
  constructor
  · rintro ⟨m, h1, h2⟩
    obtain ⟨rfl, h3⟩ := (h m n).mp h2
    exact ⟨(nat_iff v n).mp h1, h3⟩
  · rintro ⟨h1, h2⟩
    exact ⟨n, (nat_iff v n).mpr h1, (h n n).mpr ⟨rfl, h2⟩⟩

theorem strs_iff (v : Toml) (ss : List (List Char)) : v.strs? = some ss ↔ IsTexts v ss := by
  have key : ∀ (vs : List Toml) (ss : List (List Char)), vs.mapM Toml.str? = some ss ↔ vs = ss.map .str := by
    intro vs
    induction vs with
    | nil => intro ss; cases ss <;> simp
    | cons w vs ih =>
      intro ss
      simp only [List.mapM_cons, Option.bind_eq_bind, Option.bind_eq_some_iff, Option.pure_def, Option.some.injEq, ih,
        str_iff, IsText]
      constructor
      · rintro ⟨a, rfl, b, rfl, rfl⟩; rfl
      · cases ss with
        | nil => intro h; cases h
        | cons a b =>
          intro h
          simp only [List.map_cons, List.cons.injEq] at h
          exact ⟨a, h.1, b, h.2, rfl⟩
  cases v <;> simp [Toml.strs?, IsTexts, key]

theorem table_iff (v : Toml) (t : TomlTable) : v.table? = some t ↔ v = .table t := by
  cases v <;> simp [Toml.table?]

theorem unorderedMarker_iff (v : Toml) (c : Char) : readUnorderedMarker v = some c ↔ IsOneOf ['-', '*', '+'] v c := by
  unfold readUnorderedMarker IsOneOf
  constructor
  · intro h
    split at h
    all_goals first
      | (next e => cases h; exact ⟨(str_iff _ _).mp e, by simp⟩)
      | cases h
  · rintro ⟨rfl, h⟩
    simp only [List.mem_cons, List.not_mem_nil, or_false] at h
    rcases h with rfl | rfl | rfl <;> rfl

theorem orderedMarker_iff (v : Toml) (c : Char) : readOrderedMarker v = some c ↔ IsOneOf ['.', ')'] v c := by
  unfold readOrderedMarker IsOneOf
  constructor
  · intro h
    split at h
    all_goals first
      | (next e => cases h; exact ⟨(str_iff _ _).mp e, by simp⟩)
      | cases h
  · rintro ⟨rfl, h⟩
    simp only [List.mem_cons, List.not_mem_nil, or_false] at h
    rcases h with rfl | rfl <;> rfl

theorem fenceChar_iff (v : Toml) (c : Char) : readFenceChar v = some c ↔ IsOneOf ['~', '`'] v c := by
  unfold readFenceChar IsOneOf
  constructor
  · intro h
    split at h
    all_goals first
      | (next e => cases h; exact ⟨(str_iff _ _).mp e, by simp⟩)
      | cases h
  · rintro ⟨rfl, h⟩
    simp only [List.mem_cons, List.not_mem_nil, or_false] at h
    rcases h with rfl | rfl <;> rfl

theorem pad_iff (v : Toml) (b : Bool) : readPad v = some b ↔ IsPad v b := by
  have hne : "end".toList ≠ "start".toList := by decide
  unfold readPad IsPad
  generalize "end".toList = e at *
  generalize "start".toList = s at *
  rw [Option.bind_eq_some_iff]
  constructor
  · rintro ⟨x, h1, h2⟩
    have h1 := (str_iff _ _).mp h1
    unfold IsText at h1
    split at h2
    · next h => left; cases h2; exact ⟨by rw [h1, h], rfl⟩
    · split at h2
      · next h => right; cases h2; exact ⟨by rw [h1, h], rfl⟩
      · cases h2
  · rintro (⟨rfl, rfl⟩ | ⟨rfl, rfl⟩)
    · exact ⟨s, rfl, by simp⟩
    · exact ⟨e, rfl, by simp [hne]⟩

theorem dash_iff (v : Toml) (d : Option (List Char)) : readDash v = some d ↔ IsDash v d := by
  unfold IsDash
  cases v with
  | bool b => cases b <;> simp [readDash, eq_comm]
  | str s =>
    simp only [readDash, Option.map_eq_some_iff, dashNew_iff, reduceCtorEq, false_and, false_or, Toml.str.injEq]
    constructor
    · rintro ⟨a, ⟨rfl, h⟩, rfl⟩
      exact ⟨a, rfl, (by intro s hs; cases hs; exact h), rfl⟩
    · rintro ⟨a, rfl, h, rfl⟩
      exact ⟨s, ⟨rfl, h s rfl⟩, rfl⟩
  | _ => simp [readDash]

theorem style_iff (v : Toml) (s : List Char) : v.str?.bind thematicBreakStyleNew = some s ↔ IsStyle v s := by
  rw [Option.bind_eq_some_iff]
  unfold IsStyle
  constructor
  · rintro ⟨x, h1, h2⟩
    obtain ⟨rfl, h3⟩ := (styleNew_iff x s).mp h2
    exact ⟨(str_iff _ _).mp h1, h3⟩
  · rintro ⟨rfl, h⟩
    exact ⟨s, rfl, (styleNew_iff s s).mpr ⟨rfl, h⟩⟩

theorem anyNat_iff (v : Toml) (n : Nat) : v.nat? = some n ↔ IsNumber (fun _ => True) v n := by
  rw [nat_iff]; simp [IsNumber]

theorem formatter_iff (v : Toml) (f : CodeFormatter) : readFormatter v = some f ↔ IsFormatter v f := by
  obtain ⟨cmd, secs⟩ := f
  have key : v.strs?.map (fun command => (⟨command, 5⟩ : CodeFormatter)) = some ⟨cmd, secs⟩ ↔
      IsTexts v cmd ∧ secs = 5 := by
    rw [Option.map_eq_some_iff]
    constructor
    · rintro ⟨a, h1, h2⟩
      cases h2
      exact ⟨(strs_iff _ _).mp h1, rfl⟩
    · rintro ⟨h, rfl⟩
      exact ⟨cmd, (strs_iff _ _).mpr h, rfl⟩
  unfold IsFormatter
  cases v with
  | table t =>
    simp only [readFormatter, Option.bind_eq_bind, Option.bind_eq_some_iff, Option.some.injEq, CodeFormatter.mk.injEq]
    have hn : ¬ IsTexts (.table t) cmd := by simp [IsTexts]
    simp only [hn, false_and, false_or, Toml.table.injEq]
    constructor
    · rintro ⟨c, ⟨w, h1, h2⟩, n, h3, rfl, rfl⟩
      exact ⟨t, rfl, ⟨w, h1, (strs_iff _ _).mp h2⟩, (fieldD_iff anyNat_iff).mp h3⟩
    · rintro ⟨_, rfl, ⟨w, h1, h2⟩, h3⟩
      exact ⟨cmd, ⟨w, h1, (strs_iff _ _).mpr h2⟩, secs, (fieldD_iff anyNat_iff).mpr h3, rfl, rfl⟩
  | _ =>
    simp only [readFormatter, key, reduceCtorEq, false_and, exists_false, or_false]

theorem formatters_iff (v : Toml) (fs : List (List Char × CodeFormatter)) :
    readFormatters v = some fs ↔ IsFormatters v fs := by
  have key : ∀ (t : TomlTable) (fs : List (List Char × CodeFormatter)),
      t.mapM (fun kv => (readFormatter kv.2).map fun f => (kv.1, f)) = some fs ↔
        EachIs (fun kv f => kv.1 = f.1 ∧ IsFormatter kv.2 f.2) t fs := by
    intro t
    induction t with
    | nil =>
      intro fs
      constructor
      · intro h; simp at h; subst h; exact .nil
      · intro h; cases h; rfl
    | cons kv t ih =>
      intro fs
      simp only [List.mapM_cons, Option.bind_eq_bind, Option.bind_eq_some_iff, Option.pure_def, Option.some.injEq, ih,
        Option.map_eq_some_iff, formatter_iff]
      constructor
      · rintro ⟨_, ⟨a, h1, rfl⟩, b, h2, rfl⟩
        exact .cons ⟨rfl, h1⟩ h2
      · intro h
        cases h with
        | cons h1 h2 =>
          rename_i f fs
          obtain ⟨k, f⟩ := f
          obtain ⟨h0, h1⟩ := h1
          exact ⟨(k, f), ⟨f, h1, by simp [h0]⟩, _, h2, rfl⟩
  unfold IsFormatters
  simp only [readFormatters, Option.bind_eq_bind, Option.bind_eq_some_iff, table_iff, key]

theorem heading_iff (v : Toml) (c : HeadingConfig) : readHeading v = some c ↔ IsHeading v c := by
  obtain ⟨a, b, d, e, f⟩ := c
  simp only [readHeading, IsHeading, Option.bind_eq_bind, Option.bind_eq_some_iff, table_iff, fieldD_iff bool_iff,
    fieldD_iff strs_iff, Option.some.injEq, HeadingConfig.mk.injEq]
  constructor
  · rintro ⟨t, rfl, x1, h1, x2, h2, x3, h3, x4, h4, x5, h5, rfl, rfl, rfl, rfl, rfl⟩
    exact ⟨t, rfl, h1, h2, h3, h4, h5⟩
  · rintro ⟨t, rfl, h1, h2, h3, h4, h5⟩
    exact ⟨t, rfl, _, h1, _, h2, _, h3, _, h4, _, h5, rfl, rfl, rfl, rfl, rfl⟩

theorem leading_iff (n m : Nat) : leadingSpacesNew n = some m ↔ m = n ∧ n ≤ 3 := by
  unfold leadingSpacesNew
  split
  · simp only [reduceCtorEq, false_iff]; omega
  · simp only [Option.some.injEq]; omega

theorem trailing_iff (n m : Nat) : trailingSpacesNew n = some m ↔ m = n ∧ n ≤ 3 := by
  unfold trailingSpacesNew
  split
  · simp only [reduceCtorEq, false_iff]; omega
  · simp only [Option.some.injEq]; omega

theorem indent_iff (n m : Nat) : indentWidthNew n = some m ↔ m = n ∧ 1 ≤ n := by
  unfold indentWidthNew
  split
  · simp only [reduceCtorEq, false_iff]; omega
  · simp only [Option.some.injEq]; omega

theorem width_iff (n m : Nat) : lineWidthNew n = some m ↔ m = n ∧ 8 ≤ n := by
  unfold lineWidthNew
  split
  · simp only [reduceCtorEq, false_iff]; omega
  · simp only [Option.some.injEq]; omega

theorem fenceLength_iff (n m : Nat) : minFenceLengthNew n = some m ↔ m = n ∧ 3 ≤ n := by
  unfold minFenceLengthNew
  split
  · simp only [reduceCtorEq, false_iff]; omega
  · simp only [Option.some.injEq]; omega

theorem unorderedList_iff (v : Toml) (c : UnorderedListConfig) : readUnorderedList v = some c ↔ IsUnorderedList v c := by
  obtain ⟨a, b, d, e⟩ := c
  simp only [readUnorderedList, IsUnorderedList, Option.bind_eq_bind, Option.bind_eq_some_iff, table_iff,
    fieldD_iff unorderedMarker_iff, fieldD_iff (number_iff leading_iff), fieldD_iff (number_iff trailing_iff),
    fieldD_iff (number_iff indent_iff), Option.some.injEq, UnorderedListConfig.mk.injEq]
  constructor
  · rintro ⟨t, rfl, x1, h1, x2, h2, x3, h3, x4, h4, rfl, rfl, rfl, rfl⟩
    exact ⟨t, rfl, h1, h2, h3, h4⟩
  · rintro ⟨t, rfl, h1, h2, h3, h4⟩
    exact ⟨t, rfl, _, h1, _, h2, _, h3, _, h4, rfl, rfl, rfl, rfl⟩

theorem orderedList_iff (v : Toml) (c : OrderedListConfig) : readOrderedList v = some c ↔ IsOrderedList v c := by
  obtain ⟨a, b, d, e⟩ := c
  simp only [readOrderedList, IsOrderedList, Option.bind_eq_bind, Option.bind_eq_some_iff, table_iff,
    fieldD_iff orderedMarker_iff, fieldD_iff pad_iff,
    fieldD_iff (number_iff indent_iff), Option.some.injEq, OrderedListConfig.mk.injEq]
  constructor
  · rintro ⟨t, rfl, x1, h1, x2, h2, x3, h3, x4, h4, rfl, rfl, rfl, rfl⟩
    exact ⟨t, rfl, h1, h2, h3, h4⟩
  · rintro ⟨t, rfl, h1, h2, h3, h4⟩
    exact ⟨t, rfl, _, h1, _, h2, _, h3, _, h4, rfl, rfl, rfl, rfl⟩

theorem codeBlock_iff (v : Toml) (c : CodeBlockConfig) : readCodeBlock v = some c ↔ IsCodeBlock v c := by
  obtain ⟨a, b, d, e, f⟩ := c
  simp only [readCodeBlock, IsCodeBlock, Option.bind_eq_bind, Option.bind_eq_some_iff, table_iff,
    fieldD_iff fenceChar_iff, fieldD_iff (number_iff fenceLength_iff), fieldD_iff bool_iff, fieldD_iff str_iff,
    fieldD_iff formatters_iff, Option.some.injEq, CodeBlockConfig.mk.injEq]
  constructor
  · rintro ⟨t, rfl, x1, h1, x2, h2, x3, h3, x4, h4, x5, h5, rfl, rfl, rfl, rfl, rfl⟩
    exact ⟨t, rfl, h1, h2, h3, h4, h5⟩
  · rintro ⟨t, rfl, h1, h2, h3, h4, h5⟩
    exact ⟨t, rfl, _, h1, _, h2, _, h3, _, h4, _, h5, rfl, rfl, rfl, rfl, rfl⟩

theorem thematicBreak_iff (v : Toml) (c : ThematicBreakConfig) :
    readThematicBreak v = some c ↔ IsThematicBreakSection v c := by
  obtain ⟨a, b⟩ := c
  simp only [readThematicBreak, IsThematicBreakSection, Option.bind_eq_bind, Option.bind_eq_some_iff, table_iff,
    fieldD_iff style_iff, fieldD_iff (number_iff leading_iff), Option.some.injEq, ThematicBreakConfig.mk.injEq]
  constructor
  · rintro ⟨t, rfl, x1, h1, x2, h2, rfl, rfl⟩
    exact ⟨t, rfl, h1, h2⟩
  · rintro ⟨t, rfl, h1, h2⟩
    exact ⟨t, rfl, _, h1, _, h2, rfl, rfl⟩

theorem punctuation_iff (v : Toml) (c : PunctuationConfig) : readPunctuation v = some c ↔ IsPunctuation v c := by
  obtain ⟨a, b, d, e, f, g⟩ := c
  simp only [readPunctuation, IsPunctuation, Option.bind_eq_bind, Option.bind_eq_some_iff, table_iff,
    fieldD_iff bool_iff, fieldD_iff dash_iff, Option.some.injEq, PunctuationConfig.mk.injEq]
  constructor
  · rintro ⟨t, rfl, x1, h1, x2, h2, x3, h3, x4, h4, x5, h5, x6, h6, rfl, rfl, rfl, rfl, rfl, rfl⟩
    exact ⟨t, rfl, h1, h2, h3, h4, h5, h6⟩
  · rintro ⟨t, rfl, h1, h2, h3, h4, h5, h6⟩
    exact ⟨t, rfl, _, h1, _, h2, _, h3, _, h4, _, h5, _, h6, rfl, rfl, rfl, rfl, rfl, rfl⟩

theorem fieldD_append {α : Type} (t : TomlTable) (name key : String) (v : Toml) (read : Toml → Option α) (d : α)
    (h : (key.toList == name.toList) = false ∨ t.lookup name.toList = none ∧ key = name ∧ read v = some d) :
    fieldD (t ++ [(name.toList, v)]) key read d = fieldD t key read d := by
  unfold fieldD
  rw [List.lookup_append]
  rcases h with h | ⟨h1, rfl, h3⟩
  · simp only [List.lookup, h]
    cases t.lookup key.toList <;> rfl
  · simp only [List.lookup, h1, beq_self_eq_true, Option.none_or, h3]

end Hongdown.Model
