import Verif.Model.Wasm
import Verif.Lemmas.Config
import Verif.Lemmas.CodeMap
import Verif.Props.Code

/-!
# C51, C78: the JavaScript interface
-/

namespace Hongdown.Props

open Model Spec

/-- The value of a field: the one given if it is valid, the default otherwise. -/
def ValidOr {α : Type} (valid : α → Prop) (given : Option α) (default used : α) : Prop :=
  (∀ v, given = some v → valid v → used = v) ∧ ((∀ v, given = some v → ¬ valid v) → used = default)

theorem checked_nat {new : Nat → Option Nat} {p : Nat → Prop} (h : ∀ n, p n → new n = some n)
    (h' : ∀ n, ¬ p n → new n = none) (v : Option Nat) (d : Nat) : ValidOr p v d (jsChecked new v d) := by
  refine ⟨?_, ?_⟩
  · rintro n rfl hn
    simp [jsChecked, h n hn]
  · intro hn
    cases v with
    | none => rfl
    | some n => simp [jsChecked, h' n (hn n rfl)]

theorem checked_str {new : List Char → Option (List Char)} {p : List Char → Prop} (h : ∀ s t, new s = some t ↔ t = s ∧ p s)
    (v : Option (List Char)) (d : List Char) : ValidOr p v d (jsChecked new v d) := by
  refine ⟨?_, ?_⟩
  · rintro s rfl hs
    simp [jsChecked, (h s s).mpr ⟨rfl, hs⟩]
  · intro hn
    cases v with
    | none => rfl
    | some s =>
      cases e : new s with
      | none => simp [jsChecked, e]
      | some t => exact absurd ((h s t).mp e).2 (hn s rfl)

theorem checked_bool (v : Option Bool) (d : Bool) : ValidOr (fun _ => True) v d (v.getD d) := by
  refine ⟨?_, ?_⟩
  · rintro b rfl _; rfl
  · intro h
    cases v with
    | none => rfl
    | some b => exact absurd trivial (h b rfl)

/-- **C51.** Numbers: those in range are used, others are as if not given. -/
theorem c51_numbers (j : JsOptions) :
    ValidOr (8 ≤ ·) j.lineWidth 80 j.toOptions.lineWidth ∧
    ValidOr (· ≤ 3) j.leadingSpaces 1 j.toOptions.leadingSpaces ∧
    ValidOr (· ≤ 3) j.trailingSpaces 2 j.toOptions.trailingSpaces ∧
    ValidOr (1 ≤ ·) j.indentWidth 4 j.toOptions.indentWidth ∧
    ValidOr (1 ≤ ·) j.orderedListIndentWidth 4 j.toOptions.orderedListIndentWidth ∧
    ValidOr (3 ≤ ·) j.minFenceLength 4 j.toOptions.minFenceLength ∧
    ValidOr (· ≤ 3) j.thematicBreakLeadingSpaces 3 j.toOptions.thematicBreakLeadingSpaces := by
  refine ⟨?_, ?_, ?_, ?_, ?_, ?_, ?_⟩
  · exact checked_nat (fun n h => by simp [lineWidthNew]; omega) (fun n h => by simp [lineWidthNew]; omega) _ _
  · exact checked_nat (fun n h => by simp [leadingSpacesNew]; omega) (fun n h => by simp [leadingSpacesNew]; omega) _ _
  · exact checked_nat (fun n h => by simp [trailingSpacesNew]; omega) (fun n h => by simp [trailingSpacesNew]; omega) _ _
  · exact checked_nat (fun n h => by simp [indentWidthNew]; omega) (fun n h => by simp [indentWidthNew]; omega) _ _
  · exact checked_nat (fun n h => by simp [indentWidthNew]; omega) (fun n h => by simp [indentWidthNew]; omega) _ _
  · exact checked_nat (fun n h => by simp [minFenceLengthNew]; omega) (fun n h => by simp [minFenceLengthNew]; omega) _ _
  · exact checked_nat (fun n h => by simp [leadingSpacesNew]; omega) (fun n h => by simp [leadingSpacesNew]; omega) _ _

/-- **C51.** Switches and free texts are always used. -/
theorem c51_plain (j : JsOptions) :
    ValidOr (fun _ => True) j.setextH1 true j.toOptions.setextH1 ∧
    ValidOr (fun _ => True) j.setextH2 true j.toOptions.setextH2 ∧
    ValidOr (fun _ => True) j.headingSentenceCase false j.toOptions.headingSentenceCase ∧
    ValidOr (fun _ => True) j.spaceAfterFence true j.toOptions.spaceAfterFence ∧
    ValidOr (fun _ => True) j.curlyDoubleQuotes true j.toOptions.punct.curlyDouble ∧
    ValidOr (fun _ => True) j.curlySingleQuotes true j.toOptions.punct.curlySingle ∧
    ValidOr (fun _ => True) j.curlyApostrophes false j.toOptions.punct.curlyApostrophes ∧
    ValidOr (fun _ => True) j.ellipsis true j.toOptions.punct.ellipsis ∧
    j.toOptions.headingProperNouns = j.headingProperNouns.getD [] ∧
    j.toOptions.headingCommonNouns = j.headingCommonNouns.getD [] ∧
    j.toOptions.defaultLanguage = j.defaultLanguage.getD [] ∧
    j.toOptions.codeFormatters = [] :=
  ⟨checked_bool _ _, checked_bool _ _, checked_bool _ _, checked_bool _ _, checked_bool _ _, checked_bool _ _,
    checked_bool _ _, checked_bool _ _, rfl, rfl, rfl, rfl⟩

/-- A text of one of these characters. -/
def OneOf (cs : List Char) (s : List Char) : Prop := ∃ c ∈ cs, s = [c]

/-- **C51.** Markers, the fence and the style: valid ones are used, others are as if not given. -/
theorem c51_texts (j : JsOptions) :
    ValidOr (OneOf ['-', '*', '+']) j.unorderedMarker ['-'] [j.toOptions.unorderedMarker] ∧
    ValidOr (OneOf ['.', ')']) j.oddLevelMarker ['.'] [j.toOptions.oddLevelMarker] ∧
    ValidOr (OneOf ['.', ')']) j.evenLevelMarker [')'] [j.toOptions.evenLevelMarker] ∧
    ValidOr (OneOf ['~', '`']) j.fenceChar ['~'] [j.toOptions.fenceChar] ∧
    ValidOr StyleOk j.thematicBreakStyle ((List.replicate 36 ['-', ' ']).flatten ++ ['-'])
      j.toOptions.thematicBreakStyle := by
  refine ⟨?_, ?_, ?_, ?_, checked_str styleNew_iff _ _⟩
  · refine ⟨?_, ?_⟩
    · rintro s h ⟨c, hc, rfl⟩
      simp only [JsOptions.toOptions, h]
      simp only [List.mem_cons, List.not_mem_nil, or_false] at hc
      rcases hc with rfl | rfl | rfl <;> rfl
    · intro h
      simp only [JsOptions.toOptions]
      split
      · rfl
      · next e => exact absurd ⟨'*', by simp, rfl⟩ (h _ e)
      · next e => exact absurd ⟨'+', by simp, rfl⟩ (h _ e)
      · rfl
  · refine ⟨?_, ?_⟩
    · rintro s h ⟨c, hc, rfl⟩
      simp only [JsOptions.toOptions, h]
      simp only [List.mem_cons, List.not_mem_nil, or_false] at hc
      rcases hc with rfl | rfl <;> rfl
    · intro h
      simp only [JsOptions.toOptions]
      split
      · rfl
      · next e => exact absurd ⟨')', by simp, rfl⟩ (h _ e)
      · rfl
  · refine ⟨?_, ?_⟩
    · rintro s h ⟨c, hc, rfl⟩
      simp only [JsOptions.toOptions, h]
      simp only [List.mem_cons, List.not_mem_nil, or_false] at hc
      rcases hc with rfl | rfl <;> rfl
    · intro h
      simp only [JsOptions.toOptions]
      split
      · rfl
      · next e => exact absurd ⟨'.', by simp, rfl⟩ (h _ e)
      · rfl
  · refine ⟨?_, ?_⟩
    · rintro s h ⟨c, hc, rfl⟩
      simp only [JsOptions.toOptions, h]
      simp only [List.mem_cons, List.not_mem_nil, or_false] at hc
      rcases hc with rfl | rfl <;> rfl
    · intro h
      simp only [JsOptions.toOptions]
      split
      · rfl
      · next e => exact absurd ⟨'`', by simp, rfl⟩ (h _ e)
      · rfl

/-- What a dash setting means: nothing given is the default, a valid pattern is used, anything
else switches the dash off. -/
def DashMeans (given : Option JsDash) (default used : Option (List Char)) : Prop :=
  (given = none → used = default) ∧ (∀ b, given = some (.disabled b) → used = none) ∧
  ∀ s, given = some (.pattern s) → DashOk (some s) ∧ used = some s ∨ ¬ DashOk (some s) ∧ used = none

theorem dashMeans (g : Option JsDash) (d : Option (List Char)) :
    DashMeans g d (match g with | none => d | some v => v.toDash) := by
  refine ⟨?_, ?_, ?_⟩
  · rintro rfl; rfl
  · rintro b rfl; rfl
  · rintro s rfl
    simp only [JsDash.toDash]
    cases e : dashPatternNew s with
    | none =>
      right
      refine ⟨fun h => ?_, rfl⟩
      have := (dashNew_iff s s).mpr ⟨rfl, h s rfl⟩
      rw [e] at this; cases this
    | some t =>
      left
      obtain ⟨rfl, h⟩ := (dashNew_iff s t).mp e
      exact ⟨(by intro s' hs; cases hs; exact h), rfl⟩

/-- **C51.** The dashes. -/
theorem c51_dashes (j : JsOptions) :
    DashMeans j.enDash none j.toOptions.punct.enDash ∧
    DashMeans j.emDash (some "--".toList) j.toOptions.punct.emDash :=
  ⟨dashMeans _ _, dashMeans _ _⟩

theorem validOr_cases {α : Type} {p : α → Prop} {g : Option α} {d u : α} (h : ValidOr p g d u) (hd : p d) : p u := by
  by_cases hg : ∃ v, g = some v ∧ p v
  · obtain ⟨v, h1, h2⟩ := hg
    rw [h.1 v h1 h2]; exact h2
  · rw [h.2 (fun v h1 h2 => hg ⟨v, h1, h2⟩)]; exact hd

/-- **C51.** Every object gives options in the documented ranges. -/
theorem c51_ok (j : JsOptions) : OptionsOk j.toOptions := by
  obtain ⟨n1, n2, n3, n4, n5, n6, n7⟩ := c51_numbers j
  obtain ⟨t1, t2, t3, t4, t5⟩ := c51_texts j
  have hc : ∀ {cs : List Char} {c : Char}, OneOf cs [c] → c ∈ cs := by
    rintro cs c ⟨x, hx, e⟩; cases e; exact hx
  have hd : ∀ {g : Option JsDash} {d u : Option (List Char)}, DashMeans g d u → DashOk d → DashOk u := by
    intro g d u h hd
    cases g with
    | none => rw [h.1 rfl]; exact hd
    | some v =>
      cases v with
      | disabled b => rw [h.2.1 b rfl]; intro s hs; cases hs
      | pattern s =>
        rcases h.2.2 s rfl with ⟨a, b⟩ | ⟨_, b⟩
        · rw [b]; exact a
        · rw [b]; intro s hs; cases hs
  exact
    { lineWidth := validOr_cases n1 (by decide)
      leadingSpaces := validOr_cases (p := fun x => x ≤ 3) n2 (by decide)
      trailingSpaces := validOr_cases (p := fun x => x ≤ 3) n3 (by decide)
      indentWidth := validOr_cases n4 (by decide)
      orderedIndentWidth := validOr_cases n5 (by decide)
      unorderedMarker := by simpa using hc (validOr_cases t1 ⟨_, by simp, rfl⟩)
      oddMarker := by simpa using hc (validOr_cases t2 ⟨_, by simp, rfl⟩)
      evenMarker := by simpa using hc (validOr_cases t3 ⟨_, by simp, rfl⟩)
      fenceChar := by simpa using hc (validOr_cases t4 ⟨_, by simp, rfl⟩)
      minFenceLength := validOr_cases n6 (by decide)
      style := validOr_cases t5 defaultStyle_ok
      breakSpaces := validOr_cases (p := fun x => x ≤ 3) n7 (by decide)
      enDash := hd (c51_dashes j).1 (by intro s hs; cases hs)
      emDash := hd (c51_dashes j).2 emDefault_ok }

/-- **C51.** The check of the command line against equal dash patterns is not made. -/
theorem c51_conflict_false : ¬ ∀ j : JsOptions, validateDashSettings j.toOptions.punct = none := by
  intro h
  have := h { enDash := some (.pattern "--".toList) }
  revert this
  decide +kernel

example : ({ lineWidth := some 5 } : JsOptions).toOptions.lineWidth = 80 ∧
    ({ unorderedMarker := some "x".toList } : JsOptions).toOptions.unorderedMarker = '-' ∧
    ({ minFenceLength := some 3 } : JsOptions).toOptions.minFenceLength = 3 ∧
    ({ fenceChar := some "`".toList } : JsOptions).toOptions.fenceChar = '`' ∧
    ({ emDash := some (.pattern "a b".toList) } : JsOptions).toOptions.punct.emDash = none ∧
    ({ emDash := some (.disabled true) } : JsOptions).toOptions.punct.emDash = none ∧
    ({ enDash := some (.pattern "-".toList) } : JsOptions).toOptions.punct.enDash = some "-".toList ∧
    ({ thematicBreakStyle := some "***".toList } : JsOptions).toOptions.thematicBreakStyle = "***".toList := by
  decide +kernel

/-! ### C78: code formatters in JavaScript -/

/-- The text a JavaScript function returns, if it returns a text. -/
def returned (f : List Char → List Char → JsReturn) (language code : List Char) : Option (List Char) :=
  match f language code with
  | .string s => some s
  | .nullish => none
  | .other => none
  | .thrown => none

/-- The language for blocks without an info string. -/
def jsDefaultLanguage (j : JsOptions) : List Char := j.defaultLanguage.getD []

/-- **C78.** Without a code formatter `formatWithCodeFormatter` does what `formatWithWarnings` does. -/
theorem c78_none (cx : Cx) (parse : List Char → Node) (j : JsOptions) (input : List Char) :
    jsFormatWithCodeFormatter cx parse j none input = jsFormatWithWarnings cx parse j input := by
  rw [jsFormatWithCodeFormatter, jsFormatWithWarnings, formatWithWarnings]
  rfl

/-- **C78.** With a code formatter it does what `formatWithWarnings` does on the document whose
code blocks hold the texts the code formatter returns: output and warnings are the same. A block
for which it returns something else or throws keeps its code, and no warning is added. -/
theorem c78_document (cx : Cx) (parse : List Char → Node) (j : JsOptions)
    (f : List Char → List Char → JsReturn) (input : List Char) :
    jsFormatWithCodeFormatter cx parse j (some f) input =
      jsFormatWithWarnings cx
        (fun s => mapCode (formattedByFunction (returned f) (jsDefaultLanguage j)) (parse s)) j input := by
  have hr : jsCallback f = returned f := by
    funext l c
    rw [jsCallback, returned]
    cases f l c <;> rfl
  rw [jsFormatWithCodeFormatter, jsFormatWithWarnings, formatWithWarnings]
  split
  · rfl
  · rw [formatDoc_callback _ (f := jsCallback f) rfl, hr]
    rfl

/-- **C78.** A code formatter that returns no text, or the code itself, changes nothing. -/
theorem c78_declined (cx : Cx) (parse : List Char → Node) (j : JsOptions)
    (f : List Char → List Char → JsReturn) (input : List Char)
    (h : ∀ e ∈ codeBlocksOf (parse input), ∀ s,
      f (languageOf (jsDefaultLanguage j) e.1) e.2 = .string s → s = e.2) :
    jsFormatWithCodeFormatter cx parse j (some f) input = jsFormatWithCodeFormatter cx parse j none input := by
  rw [c78_document, c78_none, jsFormatWithWarnings, jsFormatWithWarnings, formatWithWarnings, formatWithWarnings]
  split
  · rfl
  · simp only
    rw [mapCode_id]
    intro e he
    rw [formattedByFunction]
    split
    · rfl
    · rw [returned]
      cases hf : f (languageOf (jsDefaultLanguage j) e.1) e.2 with
      | string s => exact h e he s hf
      | _ => rfl

/-- **C78, negation.** A code formatter of the command line that fails is reported with a warning;
one that throws is not. -/
theorem c78_thrown_false : ¬ ∀ (cx : Cx) (parse : List Char → Node) (j : JsOptions)
    (f : List Char → List Char → JsReturn) (input : List Char),
    input ≠ [] →
    (∃ e ∈ codeBlocksOf (parse input), "hongdown-no-format".toList ∉ splitWs e.1 ∧
      languageOf (jsDefaultLanguage j) e.1 ≠ [] ∧ f (languageOf (jsDefaultLanguage j) e.1) e.2 = .thrown) →
    (jsFormatWithCodeFormatter cx parse j (some f) input).2 ≠ [] := by
  intro h
  refine h codeCx (fun _ => .mk .document ⟨1, 1, 3, 3⟩ [.mk (.codeBlock "c".toList "x\n".toList) ⟨1, 1, 3, 3⟩ []])
    {} (fun _ _ => .thrown) "```c\nx\n```\n".toList (by decide)
    ⟨("c".toList, "x\n".toList), by simp [codeBlocksOf, codeBlocksOfList], ?_, ?_, rfl⟩ ?_
  · decide +kernel
  · decide +kernel
  · decide +kernel

/-- A JavaScript code formatter: it puts a tab before C code, returns `null` for Java code and
throws otherwise. -/
def exJsFormatter (language code : List Char) : JsReturn :=
  if language = "c".toList then .string ('\t' :: code) else if language = "java".toList then .nullish else .thrown

example : (jsFormatWithCodeFormatter codeCx (fun _ => exCodeTree) {} (some exJsFormatter) "-".toList).1 =
    " -  i\n\n    ~~~~ c\n    \ty\n    ~~~~\n\n> ~~~~ c\n> \tx\n> ~~~~\n\n~~~~ d\nz\n~~~~\n".toList ∧
    (jsFormatWithCodeFormatter codeCx (fun _ => exCodeTree) {} (some exJsFormatter) "-".toList).2 = [] := by
  decide +kernel

/-- A promise is no text: the code is kept. -/
example : (jsFormatWithCodeFormatter codeCx (fun _ => exCodeTree) {} (some fun _ _ => .other) "-".toList) =
    jsFormatWithWarnings codeCx (fun _ => exCodeTree) {} "-".toList :=
  (c78_declined _ _ _ _ _ (by intro e _ s h; cases h)).trans (c78_none _ _ _ _)

end Hongdown.Props
