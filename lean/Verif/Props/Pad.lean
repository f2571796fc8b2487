import Verif.Spec.Pad
import Verif.Lemmas.Defaults
import Verif.Props.Lists

/-!
# C100: how the numbers of ordered lists are padded
-/

namespace Hongdown.Props
open Model Spec

/-- **C100 (partial).** Full statement: padding before the numbers with `pad = "start"` (`c100_start_false`) and lists of
any length (`c100_wide_false`). Numbers are padded after the delimiter, as for `pad = "end"`: in a list whose numbers fit
in the width, all items begin with the number in the same column, and all texts begin in the same column. -/
theorem c100_end_partial (cx : Cx) (config : Config) (lw : Option Nat) (ho : toOptions config lw = some cx.opts)
    (tight : Bool) (p : Pos) (cs : List Node) (nb : Bool) (st : St)
    (hw : wellPlaced (.mk (.list .ordered tight) p cs) = true) (hi : cs.all isItemLike = true)
    (hd : st.inDescriptionDetails = false) (hm : OptionsOk cx.opts)
    (hn : cs.length < 10 ^ (config.orderedList.indentWidth - 2)) :
    ∃ parts : List (List Char), parts.length = cs.length ∧
      (ser cx (.mk (.list .ordered tight) p cs) nb st).output = st.output ++ parts.flatten ∧
      ∀ i < cs.length, ∃ m text, parts[i]? =
          some ((if tight = false ∧ i ≠ 0 then ['\n'] else []) ++ (if st.inBlockQuote = true then ['>', ' '] else []) ++
            List.replicate (config.orderedList.indentWidth * st.listDepth) ' ' ++ m ++ text) ∧
        PaddedAfter config.orderedList.indentWidth (i + 1) m := by
  have hwid : cx.opts.orderedListIndentWidth = config.orderedList.indentWidth := by
    unfold toOptions at ho
    cases lw with
    | none => simp only [Option.bind_eq_bind, Option.bind_some, Option.some.injEq] at ho; rw [← ho]
    | some w =>
      simp only [Option.bind_eq_bind] at ho
      cases h : lineWidthNew w with
      | none => rw [h] at ho; cases ho
      | some v => rw [h, Option.bind_some, Option.some.injEq] at ho; rw [← ho]
  obtain ⟨parts, h1, h2, h3⟩ := c43_list cx .ordered tight p cs nb st hw hi hd
  refine ⟨parts, h1, h2, fun i hi => ?_⟩
  obtain ⟨m, box, body, e, hmk, _⟩ := h3 i _ (List.getElem?_eq_getElem hi)
  refine ⟨m, box ++ body, ?_, ?_⟩
  · rw [e, ← hwid]
    simp
  · obtain ⟨digits, gap, e, hdig, h0, hg1, hg2⟩ := hmk
    have hl := decimal_length hdig (h0 (by omega)) (show i + 1 < 10 ^ (config.orderedList.indentWidth - 2) by omega)
    have hne := List.length_pos_iff.mpr (digits_of_decimal hdig).1
    have hg := hg1 (by omega)
    have hlen : m.length = digits.length + (gap + 1) := by
      rw [e]
      simp only [List.length_append, List.length_cons, List.length_replicate]
    refine ⟨digits, _, gap, e, hdig, ?_, by omega, ?_⟩
    · split
      · exact hm.oddMarker
      · exact hm.evenMarker
    · omega

/-- A list of so many items. -/
def exNumbers (n : Nat) : Node := exList .ordered (List.replicate n [exPar [exText "a"]])

example : (formatDoc codeCx (exDoc [exNumbers 10])).output =
    ("1.  a\n2.  a\n3.  a\n4.  a\n5.  a\n6.  a\n7.  a\n8.  a\n9.  a\n10. a\n").toList := by decide +kernel

/-- **C100 is false** of `pad = "start"`, the default: in a list of ten items the delimiter of the last is in another column
than the others. -/
theorem c100_start_false : ¬ ∀ (config : Config) (o : Options) (n : Nat), config.orderedList.padStart = true →
    toOptions config none = some o → PaddedBefore (lines (formatDoc (exWith o) (exDoc [exNumbers n])).output) := by
  intro h
  have := h {} defaultOptions 10 rfl rfl
  revert this
  decide +kernel

/-- **C100 is false** of long lists: the text of the hundredth item is in another column. -/
theorem c100_wide_false : ¬ ∀ (config : Config) (o : Options) (n : Nat), config.orderedList.padStart = false →
    toOptions config none = some o → TextsAligned (lines (formatDoc (exWith o) (exDoc [exNumbers n])).output) := by
  intro h
  have := h { orderedList := { padStart := false } } defaultOptions 100 rfl rfl
  revert this
  decide +kernel

theorem fieldD_of_lookup {α : Type} {t t' : List (List Char × Toml)} {key : String} (read : Toml → Option α) (d : α)
    (h : t.lookup key.toList = t'.lookup key.toList) : fieldD t key read d = fieldD t' key read d := by
  unfold fieldD
  rw [h]

/-- **C100.** The setting `pad` is read, and checked, but makes no difference: two files that differ in nothing else give the
same options. -/
theorem c100_ignored (t t' : List (List Char × Toml)) (c c' : Config) (lw : Option Nat) (h : SameButPad t t')
    (hc : readConfig t = some c) (hc' : readConfig t' = some c') : toOptions c lw = toOptions c' lw := by
  obtain ⟨s, s', e, e', hs⟩ := h.lists
  unfold readConfig at hc hc'
  rw [fieldD_of_lookup _ _ (h.others _ (by decide +kernel)), fieldD_of_lookup (key := "line_width") _ _ (h.others _ (by decide +kernel)),
    fieldD_of_lookup (key := "include") _ _ (h.others _ (by decide +kernel)),
    fieldD_of_lookup (key := "exclude") _ _ (h.others _ (by decide +kernel)),
    fieldD_of_lookup (key := "git_aware") _ _ (h.others _ (by decide +kernel)),
    fieldD_of_lookup (key := "heading") _ _ (h.others _ (by decide +kernel)),
    fieldD_of_lookup (key := "unordered_list") _ _ (h.others _ (by decide +kernel)),
    fieldD_of_lookup (key := "code_block") _ _ (h.others _ (by decide +kernel)),
    fieldD_of_lookup (key := "thematic_break") _ _ (h.others _ (by decide +kernel)),
    fieldD_of_lookup (key := "punctuation") _ _ (h.others _ (by decide +kernel))] at hc
  simp only [Option.bind_eq_bind, Option.bind_eq_some_iff] at hc hc'
  obtain ⟨_, a1, _, a2, _, a3, _, a4, _, a5, _, a6, _, a7, ol, a8, _, a9, _, a10, _, a11, a12⟩ := hc
  obtain ⟨_, b1, _, b2, _, b3, _, b4, _, b5, _, b6, _, b7, ol', b8, _, b9, _, b10, _, b11, b12⟩ := hc'
  rw [a1, Option.some.injEq] at b1; rw [a2, Option.some.injEq] at b2; rw [a3, Option.some.injEq] at b3
  rw [a4, Option.some.injEq] at b4; rw [a5, Option.some.injEq] at b5; rw [a6, Option.some.injEq] at b6
  rw [a7, Option.some.injEq] at b7; rw [a9, Option.some.injEq] at b9; rw [a10, Option.some.injEq] at b10
  rw [a11, Option.some.injEq] at b11
  subst b1 b2 b3 b4 b5 b6 b7 b9 b10 b11
  have hol : ol = { ol' with padStart := ol.padStart } := by
    unfold fieldD at a8 b8
    rw [e] at a8
    rw [e'] at b8
    simp only [readOrderedList, Toml.table?, Option.bind_eq_bind, Option.bind_some] at a8 b8
    rw [fieldD_of_lookup (key := "odd_level_marker") _ _ (hs _ (by decide +kernel)),
      fieldD_of_lookup (key := "even_level_marker") _ _ (hs _ (by decide +kernel)),
      fieldD_of_lookup (key := "indent_width") _ _ (hs _ (by decide +kernel))] at a8
    simp only [Option.bind_eq_some_iff] at a8 b8
    obtain ⟨_, x1, _, x2, _, _, _, x3, x4⟩ := a8
    obtain ⟨_, y1, _, y2, _, _, _, y3, y4⟩ := b8
    rw [x1, Option.some.injEq] at y1; rw [x2, Option.some.injEq] at y2; rw [x3, Option.some.injEq] at y3
    subst y1 y2 y3
    rw [Option.some.injEq] at x4 y4
    rw [← x4, ← y4]
  rw [Option.some.injEq] at a12 b12
  rw [← a12, ← b12, hol]
  rfl

/-- Two such files. -/
def exPadFile (s : String) : List (List Char × Toml) :=
  [("line_width".toList, .int 60), ("ordered_list".toList, .table [("pad".toList, .str s.toList), ("indent_width".toList, .int 5)])]

example : SameButPad (exPadFile "start") (exPadFile "end") where
  others k hk := by
    simp only [exPadFile, List.lookup_cons]
    have : (k == "ordered_list".toList) = false := by simpa using hk
    rw [this]
  lists := ⟨_, _, lookup_at 1 (by decide +kernel) rfl, lookup_at 1 (by decide +kernel) rfl, fun k hk => by
    have : (k == "pad".toList) = false := by simpa using hk
    simp only [List.lookup_cons, this]⟩
example : (readConfig (exPadFile "start")).map (·.orderedList.padStart) = some true ∧
    (readConfig (exPadFile "end")).map (·.orderedList.padStart) = some false ∧
    ((readConfig (exPadFile "end")).bind (toOptions · none)).map (·.orderedListIndentWidth) = some 5 := by decide +kernel

end Hongdown.Props
