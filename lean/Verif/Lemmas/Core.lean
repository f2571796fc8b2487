import Verif.Spec.Core
import Verif.Lemmas.Content
import Verif.Lemmas.Marks
import Verif.Lemmas.Escape
import Verif.Lemmas.WrapText
import Verif.Lemmas.WrapStable
import Verif.Lemmas.WrapEnd
import Verif.Lemmas.PunctPipeline
import Verif.Lemmas.HeadingText
import Verif.Lemmas.Code
import Verif.Lemmas.Layout
import Verif.Lemmas.Refs
import Verif.Lemmas.Style
import Verif.Lemmas.ContentOne
import Verif.Props.Source

/-!
# Lemmas for the core of Markdown
-/

namespace Hongdown.Model
open Spec

/-! ### Plain words -/

theorem coreWord_ne_nil {w : List Char} (h : CoreWord w) : w ≠ [] := by
  rintro rfl
  obtain ⟨c, hc, _⟩ := h.2.1
  cases hc

theorem textLine_join {l : List Char} (h : TextLine l) :
    ∃ ws, ws ≠ [] ∧ (∀ w ∈ ws, CoreWord w) ∧ l = joinWith [' '] ws :=
  ⟨splitOn ' ' l, splitOn_ne_nil _ _, h, (join_splitOn _ _).symm⟩

theorem coreWord_no_space {w : List Char} (h : CoreWord w) : ' ' ∉ w := by
  intro hm
  exact absurd (h.1 _ hm) (by decide)

theorem textLine_of_join {ws : List (List Char)} (h0 : ws ≠ []) (h : ∀ w ∈ ws, CoreWord w) :
    TextLine (joinWith [' '] ws) ∧ splitOn ' ' (joinWith [' '] ws) = ws := by
  have e := splitOn_join h0 (fun w hw => coreWord_no_space (h w hw))
  exact ⟨by unfold TextLine; rw [e]; exact h, e⟩

theorem textLine_char {l : List Char} (h : TextLine l) {c : Char} (hc : c ∈ l) : c = ' ' ∨ rawChar c = true := by
  rw [← join_splitOn ' ' l] at hc
  rcases mem_joinWith hc with hc | ⟨w, hw, hc⟩
  · left; simpa using hc
  · exact .inr ((h w hw).1 c hc)

theorem textLine_ne_nil {l : List Char} (h : TextLine l) : l ≠ [] := by
  rintro rfl
  exact coreWord_ne_nil (h [] (by simp [splitOn])) rfl

theorem textLine_not_mem {l : List Char} (h : TextLine l) (d : Char) (hd : rawChar d = false) (hs : d ≠ ' ') : d ∉ l := by
  intro hm
  rcases textLine_char h hm with e | e
  · exact hs e
  · rw [hd] at e; cases e

theorem splitOn_head_sep (c : Char) (s : List Char) : splitOn c (c :: s) = [] :: splitOn c s := by
  have := splitOn_append_sep (c := c) (a := []) (by simp) s
  simpa using this

theorem textLine_head {l : List Char} (h : TextLine l) : ∀ c ∈ l.head?, rawChar c = true := by
  intro c hc
  cases l with
  | nil => cases hc
  | cons d l =>
    simp at hc
    subst hc
    rcases textLine_char h (List.mem_cons_self ..) with e | e
    · subst e
      have := h [] (by rw [splitOn_head_sep]; simp)
      exact absurd rfl (coreWord_ne_nil this)
    · exact e

theorem textLine_last {l : List Char} (h : TextLine l) : ∀ c ∈ l.getLast?, rawChar c = true := by
  intro c hc
  obtain ⟨u, rfl⟩ := getLast_snoc_iff.1 hc
  rcases textLine_char h (c := c) (by simp) with e | e
  · subst e
    have := h [] (by
      rw [splitOn_append_cons]
      simp [splitOn])
    exact absurd rfl (coreWord_ne_nil this)
  · exact e

theorem textLine_hash {l : List Char} (h : TextLine l) : l.head? ≠ some '#' ∧ l.getLast? ≠ some '#' := by
  constructor
  · intro hc
    cases l with
    | nil => cases hc
    | cons c l =>
      simp only [List.head?_cons, Option.some.injEq] at hc
      subst hc
      obtain ⟨w, hw, hh⟩ : ∃ w ∈ splitOn ' ' ('#' :: l), w.head? = some '#' := by
        obtain ⟨w, ws, _, e⟩ := splitOn_cons_of_ne (c := ' ') (x := '#') (by decide) l
        exact ⟨'#' :: w, by rw [e]; simp, rfl⟩
      exact (h w hw).2.2.2.2.2.1 hh
  · intro hc
    obtain ⟨u, rfl⟩ := getLast_snoc_iff.1 hc
    obtain ⟨w, hw, hh⟩ : ∃ w ∈ splitOn ' ' (u ++ ['#']), w.getLast? = some '#' := by
      rcases List.eq_nil_or_concat (splitOn ' ' u) with hs | ⟨ws, w, hs⟩
      · exact absurd hs (splitOn_ne_nil _ _)
      · refine ⟨w ++ ['#'], ?_, by simp⟩
        have e := join_splitOn ' ' u
        have hno := splitOn_not_mem ' ' u
        rw [hs] at e hno
        have : joinWith [' '] (ws ++ [w ++ ['#']]) = u ++ ['#'] := by
          rw [← e]
          clear e hno hs hc h
          induction ws with
          | nil => simp [joinWith]
          | cons x ws ih => cases ws <;> simp_all [joinWith]
        rw [← this, splitOn_join (by simp)]
        · simp
        · intro x hx
          simp only [List.mem_append, List.mem_singleton] at hx
          rcases hx with hx | rfl
          · exact hno x (by simp [hx])
          · have := hno w (by simp)
            simp [this]
    exact (h w hw).2.2.2.2.2.2 hh

theorem textLine_clean {l : List Char} (h : TextLine l) : CleanLine l := by
  refine ⟨textLine_ne_nil h, trim_of_ends (fun c hc => rawChar_not_ws (textLine_head h c hc))
    (fun c hc => rawChar_not_ws (textLine_last h c hc)), ?_, ?_⟩
  · intro c hc hw
    rcases textLine_char h hc with e | e
    · exact e
    · rw [rawChar_not_ws e] at hw; cases hw
  · rintro ⟨a, b, rfl⟩
    have := h [] (by
      rw [List.append_assoc, show [' ', ' '] ++ b = ' ' :: ' ' :: b from rfl, splitOn_append_cons, splitOn_head_sep]
      simp)
    exact absurd rfl (coreWord_ne_nil this)

/-! ### Words -/

theorem wordsAux_solid : ∀ (w acc : List Char), (∀ c ∈ w, ¬ (isWs c = true ∨ c = '\x00')) → w ≠ [] ∨ acc ≠ [] →
    wordsAux acc w = [acc.reverse ++ w]
  | [], acc, _, h => by
    have : acc ≠ [] := by simpa using h
    simp [wordsAux, this]
  | c :: w, acc, hw, _ => by
    rw [wordsAux, if_neg (hw c (by simp)), wordsAux_solid w (c :: acc) (fun d hd => hw d (by simp [hd])) (.inr (by simp))]
    simp

theorem words_solid {w : List Char} (hw : ∀ c ∈ w, ¬ (isWs c = true ∨ c = '\x00')) (h0 : w ≠ []) : words w = [w] := by
  rw [words, wordsAux_solid w [] hw (.inl h0)]; rfl

theorem flatMap_congr_mem {α β : Type} {l : List α} {f g : α → List β} (h : ∀ x ∈ l, f x = g x) : l.flatMap f = l.flatMap g := by
  induction l with
  | nil => rfl
  | cons x l ih => rw [List.flatMap_cons, List.flatMap_cons, h x (by simp), ih fun y hy => h y (by simp [hy])]

theorem words_joinWith {sep : Char} (hs : isSep sep) : ∀ ls : List (List Char), words (joinWith [sep] ls) = ls.flatMap words
  | [] => rfl
  | [l] => by simp [joinWith]
  | l :: m :: ls => by
    rw [joinWith_cons _ _ (by simp), List.append_assoc, List.singleton_append, words_append_sep _ hs, words_joinWith hs (m :: ls)]
    simp

theorem splitOn_empty {m : List Char} (h : [] ∈ splitOn ' ' m) :
    m = [] ∨ m.head? = some ' ' ∨ m.getLast? = some ' ' ∨ [' ', ' '] <:+: m := by
  have key : ∀ ws : List (List Char), [] ∈ ws → joinWith [' '] ws = [] ∨ (joinWith [' '] ws).head? = some ' ' ∨
      (joinWith [' '] ws).getLast? = some ' ' ∨ [' ', ' '] <:+: joinWith [' '] ws := by
    intro ws
    induction ws with
    | nil => intro h; cases h
    | cons w ws ih =>
      intro h
      cases ws with
      | nil => left; simpa [joinWith] using h
      | cons v ws =>
        rw [joinWith_cons _ _ (by simp)]
        rcases List.mem_cons.1 h with h | h
        · subst h; right; left; simp
        · rcases ih h with h | h | h | h
          · right; right; left; simp [h]
          · right; right; right
            cases hj : joinWith [' '] (v :: ws) with
            | nil => rw [hj] at h; cases h
            | cons c r =>
              rw [hj] at h
              simp at h
              subst h
              exact ⟨w, r, by simp⟩
          · right; right; left
            rw [List.getLast?_append, h]; rfl
          · right; right; right
            exact h.trans (List.suffix_append _ _).isInfix
  have := key _ h
  rwa [join_splitOn] at this

theorem words_clean {m : List Char} (h : CleanLine m) (hz : '\x00' ∉ m) : words m = splitOn ' ' m := by
  have hne : ∀ w ∈ splitOn ' ' m, w ≠ [] := by
    rintro w hw rfl
    rcases splitOn_empty hw with e | e | e | e
    · exact h.ne e
    · have := trim_head m
      rw [h.trim] at this
      exact absurd (this ' ' e) (by decide)
    · have := trim_getLast m
      rw [h.trim] at this
      exact absurd (this ' ' e) (by decide)
    · exact h.single e
  have hsolid : ∀ w ∈ splitOn ' ' m, words w = [w] := by
    intro w hw
    refine words_solid ?_ (hne w hw)
    rintro c hc (e | e)
    · have := h.ws c (mem_splitOn_subset hw hc) e
      subst this
      exact splitOn_not_mem _ _ w hw hc
    · subst e; exact hz (mem_splitOn_subset hw hc)
  have : words m = (splitOn ' ' m).flatMap words := by
    conv => lhs; rw [← join_splitOn ' ' m]
    exact words_joinWith (.inl (by decide)) _
  rw [this, flatMap_congr_mem (g := fun w => [w]) hsolid]
  simp

/-! ### What is written for plain text -/

/-- A piece without separators is a piece of a part. -/
theorem infix_part {sep : Char} {x : List Char} (hx : sep ∉ x) (h0 : x ≠ []) : ∀ (ws : List (List Char)), x <:+: joinWith [sep] ws →
    ∃ w ∈ ws, x <:+: w
  | [], h => absurd (List.eq_nil_of_infix_nil h) h0
  | [w], h => ⟨w, by simp, h⟩
  | w :: v :: ws, h => by
    rw [joinWith_cons _ _ (by simp), List.append_assoc, List.singleton_append] at h
    obtain ⟨a, b, e⟩ := h
    rw [List.append_assoc] at e
    rcases List.append_eq_append_iff.1 e with ⟨c, rfl, e2⟩ | ⟨c, rfl, e2⟩
    · rcases List.append_eq_append_iff.1 e2 with ⟨d, rfl, e3⟩ | ⟨d, rfl, e3⟩
      · exact ⟨a ++ (x ++ d), by simp, ⟨a, d, by simp⟩⟩
      · cases d with
        | nil => exact ⟨a ++ c, by simp, ⟨a, [], by simp⟩⟩
        | cons y d =>
          simp only [List.cons_append, List.cons.injEq] at e3
          exact absurd (by simp [← e3.1]) hx
    · cases c with
      | nil =>
        cases x with
        | nil => exact absurd rfl h0
        | cons y x =>
          simp only [List.nil_append, List.cons_append, List.cons.injEq] at e2
          exact absurd (by simp [← e2.1]) hx
      | cons y c =>
        simp only [List.cons_append, List.cons.injEq] at e2
        obtain ⟨u, hu, hi⟩ := infix_part hx h0 (v :: ws) ⟨c, b, by rw [List.append_assoc]; exact e2.2.symm⟩
        exact ⟨u, List.mem_cons_of_mem _ hu, hi⟩

/-- A piece without spaces in words is a piece of a word. -/
theorem infix_word {x : List Char} (hx : ' ' ∉ x) (h0 : x ≠ []) (ws : List (List Char)) (h : x <:+: joinWith [' '] ws) :
    ∃ w ∈ ws, x <:+: w := infix_part hx h0 ws h

theorem single_id (u : Uni) (s : List Char) (h : '\'' ∉ s) : transformSingleQuotes u s = s := by
  rw [transformSingleQuotes]
  apply ctxMap_id
  intro st prev c rest hc
  rw [singleStep, if_neg]
  rintro rfl
  exact h hc

theorem apostrophes_id (u : Uni) (s : List Char) (h : '\'' ∉ s) : transformApostrophes u s = s := by
  rw [transformApostrophes]
  apply ctxMap_id
  intro st prev c rest hc
  rw [apostropheStep, if_neg]
  rintro rfl
  exact h hc

theorem inWords_next : ∀ {l : List Char} {p : Option Char}, inWords p l = true → ∀ {u : Uni}, (∀ c : Char, c.isAlpha = true → u.alphabetic c = true) →
    ∀ st, ctxMap (singleStep u) st p l = l
  | [], _, _, _, _, _ => rfl
  | c :: l, p, h, u, hu, st => by
    rw [inWords, Bool.and_eq_true] at h
    have hs : singleStep u st p c l = (c, st) := by
      unfold singleStep
      by_cases hc : c = '\''
      · rw [if_pos hc]
        have h1 := h.1
        rw [Bool.or_eq_true, Bool.and_eq_true] at h1
        rcases h1 with h1 | h1
        · simp [hc] at h1
        · have a1 : p.any u.alphabetic = true := by
            cases p with
            | none => simp at h1
            | some d => exact hu d (by simpa using h1.1)
          have a2 : l.head?.any u.alphabetic = true := by
            cases hl : l.head? with
            | none => simp [hl] at h1
            | some d => exact hu d (by simpa [hl] using h1.2)
          rw [if_pos (by unfold singleKeeps; simp [a1, a2])]
      · rw [if_neg hc]
    rw [ctxMap, hs, inWords_next h.2 hu]

/-- The single quotes of words stay. -/
theorem single_words (u : Uni) (hu : ∀ c : Char, c.isAlpha = true → u.alphabetic c = true) {s : List Char} (h : inWords none s = true) :
    transformSingleQuotes u s = s := inWords_next h hu true

theorem marksKept_mono {cx : Cx} {s t : List Char} (h : MarksKept cx t) (hs : s ⊆ t) : MarksKept cx s :=
  ⟨fun hm => h.1 (hs hm), fun hm => h.2 (hs hm)⟩

/-- Patterns that plain words do not have. -/
def DashesOk (o : PunctOpts) : Prop :=
  ∀ p, o.enDash = some p ∨ o.emDash = some p → ['-', '-'] <:+: p ∨ ∃ c ∈ p, plainChar c = false ∧ c ≠ ' '

/-- A part of a line of text. -/
def TextPart (l : List Char) : Prop :=
  (∀ c ∈ l, c = ' ' ∨ plainChar c = true) ∧ ¬ ['-', '-'] <:+: l ∧ ¬ ['.', '.', '.'] <:+: l ∧ inWords none l = true

theorem textPart_not_mem {l : List Char} (h : TextPart l) (d : Char) (hd : plainChar d = false) (hs : d ≠ ' ') : d ∉ l := by
  intro hm
  rcases h.1 _ hm with e | e
  · exact hs e
  · rw [hd] at e; cases e

theorem pattern_absent {p l : List Char} (h : TextPart l)
    (hp : ['-', '-'] <:+: p ∨ ∃ c ∈ p, plainChar c = false ∧ c ≠ ' ') : ¬ p <:+: l := by
  intro hi
  rcases hp with hp | ⟨c, hc, h1, h2⟩
  · exact h.2.1 (hp.trans hi)
  · exact textPart_not_mem h c h1 h2 (hi.subset hc)

theorem transform_quotes {cx : Cx} (ho : DashesOk cx.opts.punct) {l : List Char} (h : TextPart l) :
    transformPunctuation cx.uni cx.opts.punct l =
      stApo cx.uni cx.opts.punct.curlyApostrophes (stSgl cx.uni cx.opts.punct.curlySingle (stDbl cx.opts.punct.curlyDouble l)) := by
  generalize cx.uni = u
  generalize cx.opts.punct = o at ho ⊢
  have e1 : stDash o.emDash emDashC l = l := by
    unfold stDash
    split
    · next p e => exact transformDashes_absent _ (pattern_absent h (ho p (.inr e)))
    · rfl
  have e2 : stDash o.enDash enDashC l = l := by
    unfold stDash
    split
    · next p e => exact transformDashes_absent _ (pattern_absent h (ho p (.inl e)))
    · rfl
  have e3 : stEll o.ellipsis l = l := by
    unfold stEll
    rw [(tE_fixed_iff l).2 h.2.2.1, ite_self]
  rw [transformPunctuation_eq, e1, e2, e3]

theorem transform_curly {cx : Cx} (ho : DashesOk cx.opts.punct) {l : List Char} (h : TextPart l) :
    Curly l (transformPunctuation cx.uni cx.opts.punct l) := by
  rw [transform_quotes ho h]
  exact quotes_curly _ _ _

theorem transform_chars {cx : Cx} (ho : DashesOk cx.opts.punct) {l : List Char} (h : TextPart l) :
    ∀ c ∈ transformPunctuation cx.uni cx.opts.punct l, c = ' ' ∨ plainChar c = true := by
  have := curly_char (f := fun c => c = ' ' || plainChar c) (by decide) (transform_curly ho h) (fun c hc => by simpa using h.1 c hc)
  intro c hc
  simpa using this c hc

theorem transform_plain {cx : Cx} (ho : DashesOk cx.opts.punct) {l : List Char} (h : TextPart l) (hq : MarksKept cx l) :
    transformPunctuation cx.uni cx.opts.punct l = l := by
  rw [transform_quotes ho h]
  have e4 : stDbl cx.opts.punct.curlyDouble l = l := by
    unfold stDbl
    by_cases hm : '"' ∈ l
    · rw [hq.1 hm]; rfl
    · rw [double_id l hm, ite_self]
  have e5 : stSgl cx.uni cx.opts.punct.curlySingle l = l := by
    unfold stSgl
    have : transformSingleQuotes cx.uni l = l := by
      by_cases hm : '\'' ∈ l
      · exact single_words _ (hq.2 hm).2 h.2.2.2
      · exact single_id _ l hm
    rw [this, ite_self]
  have e6 : stApo cx.uni cx.opts.punct.curlyApostrophes l = l := by
    unfold stApo
    by_cases hm : '\'' ∈ l
    · rw [(hq.2 hm).1]; rfl
    · rw [apostrophes_id _ l hm, ite_self]
  rw [e4, e5, e6]

theorem escapeTextGo_plain : ∀ (s : List Char) (prev : Option Char),
    (∀ c ∈ s, c = ' ' ∨ plainChar c = true) → escapeTextGo prev s = s
  | [], _, _ => rfl
  | c :: s, prev, h => by
    have hc := h c (by simp)
    have h1 : ∀ d : Char, plainChar d = false → d ≠ ' ' → c ≠ d := by
      rintro d h1 h2 rfl
      rcases hc with hc | hc
      · exact h2 hc
      · rw [h1] at hc; cases hc
    have h2 : needsEscape prev c s.head? = false := by
      rw [needsEscape, if_neg (h1 '*' (by decide) (by decide)), if_neg (h1 '_' (by decide) (by decide)),
        if_neg (h1 '[' (by decide) (by decide)), if_neg (h1 ']' (by decide) (by decide)),
        if_neg (h1 '\\' (by decide) (by decide)), if_neg (h1 '`' (by decide) (by decide))]
    rw [escapeTextGo, if_neg (by rw [h2]; simp), escapeTextGo_plain s _ (fun d hd => h d (by simp [hd]))]

theorem escapeChar_plain {c : Char} (h : c = ' ' ∨ plainChar c = true) : escapeChar c = [c] :=
  escapeTextGo_plain [c] none (by simpa using h)

theorem flatMap_escapeChar_plain : ∀ (s : List Char), (∀ c ∈ s, c = ' ' ∨ plainChar c = true) → s.flatMap escapeChar = s
  | [], _ => rfl
  | c :: s, h => by
    rw [List.flatMap_cons, escapeChar_plain (h c (by simp)), flatMap_escapeChar_plain s (fun d hd => h d (by simp [hd]))]
    rfl

theorem escapeSrcGo_plain (named : List Char → Option Char) : ∀ (k : Nat) (s t : List Char),
    (∀ c ∈ s, c = ' ' ∨ plainChar c = true) → '\\' ∉ t → '&' ∉ t → escapeSrcGo named k s t = s
  | 0, s, _, h, _, _ => flatMap_escapeChar_plain s h
  | _ + 1, [], _, _, _, _ => rfl
  | _ + 1, c :: s, [], h, _, _ => flatMap_escapeChar_plain (c :: s) h
  | k + 1, c :: s, d :: t, h, h1, h2 => by
    simp only [List.mem_cons, not_or] at h1 h2
    rw [escapeSrcGo, if_neg (fun e => h1.1 e.1.symm), if_neg (Ne.symm h2.1)]
    split
    · rw [escapeChar_plain (h c (by simp)), escapeSrcGo_plain named k s t (fun d hd => h d (by simp [hd])) h1.2 h2.2]
      rfl
    · exact escapeSrcGo_plain named k (c :: s) t h h1.2 h2.2

theorem textNode_curl {cx : Cx} (ho : DashesOk cx.opts.punct) {l : List Char} (h : TextPart l) {p : Pos}
    (hp : extractSource cx p = some l) : textNode cx l p = transformPunctuation cx.uni cx.opts.punct l := by
  unfold textNode
  rw [hp]
  exact escapeSrcGo_plain _ _ _ _ (transform_chars ho h) (textPart_not_mem h _ (by decide) (by decide)) (textPart_not_mem h _ (by decide) (by decide))

/-! ### Content with its quotation marks replaced -/

/-- Text with its quotation marks replaced, line by line. -/
def curlText (cx : Cx) (t : List Char) : List Char := joinWith ['\n'] ((splitOn '\n' t).map (transformPunctuation cx.uni cx.opts.punct))

def curlSpan (cx : Cx) : Span → Span
  | .text t => .text (curlText cx t)
  | .code t => .code t

def curlRun (cx : Cx) : Run → Run
  | .span s => .span (curlSpan cx s)
  | .emph d strong inner => .emph d strong (inner.map (curlSpan cx))
  | .link t => .link t
  | .direct image t url => .direct image t url

open Classical in
/-- Lines of text with their quotation marks replaced. -/
noncomputable def curlLines (cx : Cx) (ls : List (List Char)) : List (List Char) :=
  if h : ∃ a, ContentReads ls a then splitOn '\n' (runsText (h.choose.map (curlRun cx))) else ls

noncomputable def curlBlock (cx : Cx) : CoreBlock → CoreBlock
  | .heading level ls => .heading level (curlLines cx ls)
  | .paragraph ls => .paragraph (curlLines cx ls)
  | b => b

/-! ### Places -/

theorem extract_standsAt {cx : Cx} {src : List Char} (hr : '\r' ∉ src) {p : Pos} {text : List Char}
    (h : StandsAt src p text) (h0 : text ≠ []) (hl : text.getLast? ≠ some '\n') :
    extractSource (withSource cx src) p = some text := by
  obtain ⟨before, after, rfl, rfl⟩ := h
  have hne : before ++ text ++ after ≠ [] := by simp [h0]
  have hj := joinWith_linesGo (before ++ text ++ after) [] (by simp) hr (by simp) (.inr hne)
  have hlne : lines (before ++ text ++ after) ≠ [] := linesGo_acc [] _ (.inr hne)
  have key : ∃ after', joinWith ['\n'] (lines (before ++ text ++ after)) = before ++ text ++ after' := by
    by_cases hn : (before ++ text ++ after).getLast? = some '\n'
    · rw [if_pos hn] at hj
      rcases List.eq_nil_or_concat after with rfl | ⟨a, c, rfl⟩
      · rw [List.append_nil] at hn
        rw [List.getLast?_append] at hn
        cases hx : text.getLast? with
        | none => exact absurd (List.getLast?_eq_none_iff.1 hx) h0
        | some x => rw [hx] at hn; simp at hn; rw [hx] at hl; exact absurd (by rw [hn]) hl
      · simp at hn
        subst hn
        refine ⟨a, ?_⟩
        have : joinWith ['\n'] (linesGo [] (before ++ text ++ a.concat '\n')) ++ ['\n'] = before ++ text ++ a ++ ['\n'] := by
          simpa using hj
        exact List.append_cancel_right this
    · rw [if_neg hn, List.append_nil] at hj
      exact ⟨after, hj⟩
  obtain ⟨after', h'⟩ := key
  exact Props.c75_extract (withSource cx (before ++ text ++ after)) before text after' hlne (lines_no_nl _) h'

/-! ### What is written for content -/

theorem maxBackticks_none : ∀ (t : List Char) (m : Nat), '`' ∉ t → maxBackticksGo m 0 t = m
  | [], m, _ => by simp [maxBackticksGo]
  | c :: t, m, h => by
    simp only [List.mem_cons, not_or] at h
    rw [maxBackticksGo, if_neg (Ne.symm h.1)]
    simp [maxBackticks_none t m h.2]

theorem codeNode_plain {cx : Cx} {src : List Char} (hr : '\r' ∉ src) {t : List Char} (h : SpanOk (.code t)) {p : Pos}
    (hp : StandsAt src p (['`'] ++ t ++ ['`']) ∨ StandsAt src p t) :
    codeNode (withSource cx src) t p = ['`'] ++ t ++ ['`'] := by
  have htick := codeSpan_tick h
  have hnl := codeSpan_nl h
  unfold codeNode
  rcases hp with hp | hp
  · rw [extract_standsAt hr hp (by simp) (by rw [List.getLast?_append]; simp)]
    have hh : t.head? ≠ some '`' := fun e => htick (List.mem_of_mem_head? e)
    have hl : t.reverse.head? ≠ some '`' := fun e => htick (List.mem_reverse.1 (List.mem_of_mem_head? e))
    have hlen : t.length ≠ 0 := by simpa using h.1
    have hb := length_le_byteLen (['`'] ++ t ++ ['`'])
    have hv : isValidCodeSpan (['`'] ++ t ++ ['`']) = true := by
      have e1 : ((['`'] ++ t ++ ['`']).takeWhile (· = '`')).length = 1 := by
        cases t with
        | nil => exact absurd rfl h.1
        | cons c t => simp at hh; simp [hh]
      have e2 : ((['`'] ++ t ++ ['`']).reverse.takeWhile (· = '`')).length = 1 := by
        rw [List.reverse_append, List.reverse_append]
        cases hx : t.reverse with
        | nil => simp at hx; exact absurd hx h.1
        | cons c u => rw [hx] at hl; simp at hl; simp [hl]
      unfold isValidCodeSpan
      rw [if_neg (by simp)]
      simp only [e1, e2]
      simp at hb ⊢
      omega
    have hc : (['`'] ++ t ++ ['`']).contains '\n' = false := by
      rw [Bool.eq_false_iff]; intro e
      rw [List.contains_iff_mem] at e
      simp at e
      exact hnl e
    simp only [hv, hc]
    rfl
  · have hl : t.getLast? ≠ some '\n' := fun e => hnl (List.mem_of_getLast? e)
    rw [extract_standsAt hr hp h.1 hl]
    have hv : isValidCodeSpan t = false := by
      cases t with
      | nil => rfl
      | cons c t =>
        have hc : c ≠ '`' := by rintro rfl; exact htick (by simp)
        unfold isValidCodeSpan
        simp [hc]
    simp only [hv]
    have hh : t.head? ≠ some '`' := fun e => htick (List.mem_of_mem_head? e)
    have hg : t.getLast? ≠ some '`' := fun e => htick (List.mem_of_getLast? e)
    simp [formatCodeSpan, maxBackticks_none t 0 htick, hh, hg]

/-- Line breaks are written as the character `d`. -/
def softChar (d c : Char) : Char := if c = '\n' then d else c

theorem map_soft {d : Char} {x : List Char} (h : '\n' ∉ x) : x.map (softChar d) = x := by
  induction x with
  | nil => rfl
  | cons c x ih =>
    simp only [List.mem_cons, not_or] at h
    rw [List.map_cons, ih h.2]
    unfold softChar
    rw [if_neg (Ne.symm h.1)]

theorem map_joinWith_soft (d : Char) : ∀ (ls : List (List Char)), (∀ l ∈ ls, '\n' ∉ l) →
    (joinWith ['\n'] ls).map (softChar d) = joinWith [d] ls
  | [], _ => rfl
  | [l], h => map_soft (h l (by simp))
  | l :: m :: ls, h => by
    rw [joinWith_cons ['\n'] l (by simp), joinWith_cons [d] l (by simp), List.map_append, List.map_append, map_soft (h l (by simp)),
      map_joinWith_soft d (m :: ls) (fun x hx => h x (by simp [hx]))]
    rfl

theorem inWords_prev {y : List Char} {p q : Option Char} (h : p.any Char.isAlpha = q.any Char.isAlpha) : inWords p y = inWords q y := by
  cases y with
  | nil => rfl
  | cons c y => rw [inWords, inWords, h]

/-- Apostrophes between letters stay there when text is cut at line breaks. -/
theorem inWords_parts : ∀ (t : List Char) {p : Option Char}, inWords p t = true →
    ∃ l ls, splitOn '\n' t = l :: ls ∧ inWords p l = true ∧ l.head?.any Char.isAlpha = t.head?.any Char.isAlpha ∧
      ∀ m ∈ ls, inWords none m = true
  | [], p, _ => ⟨[], [], rfl, rfl, rfl, by simp⟩
  | c :: t, p, h => by
    rw [inWords, Bool.and_eq_true] at h
    obtain ⟨l, ls, e, h1, h2, h3⟩ := inWords_parts t h.2
    by_cases hc : c = '\n'
    · subst hc
      refine ⟨[], l :: ls, by rw [splitOn_head_sep, e], rfl, rfl, ?_⟩
      intro m hm
      rcases List.mem_cons.1 hm with rfl | hm
      · rwa [inWords_prev (q := some '\n') (by decide)]
      · exact h3 m hm
    · refine ⟨c :: l, ls, ?_, ?_, rfl, h3⟩
      · rw [splitOn, if_neg hc, e]
      · rw [inWords, h2, Bool.and_eq_true]
        exact ⟨h.1, h1⟩

theorem splitOn_parts {t : List Char} (h : SpanOk (.text t)) : ∀ l ∈ splitOn '\n' t, TextPart l := by
  intro l hl
  have hi := infix_of_mem_splitOn hl
  have hw : inWords none l = true := by
    obtain ⟨l', ls, e, h1, _, h3⟩ := inWords_parts t h.2.2.2.2
    rw [e] at hl
    rcases List.mem_cons.1 hl with rfl | hl
    · exact h1
    · exact h3 l hl
  refine ⟨fun c hc => ?_, fun e => h.2.2.1 (e.trans hi), fun e => h.2.2.2.1 (e.trans hi), hw⟩
  rcases h.2.1 c (hi.subset hc) with e | e
  · exact .inr e
  · rcases gapChar_iff.1 e with rfl | rfl
    · exact .inl rfl
    · exact absurd hc (splitOn_not_mem _ _ l hl)

theorem partNodes_texts {cx : Cx} {src : List Char} (hr : '\r' ∉ src) (ho : DashesOk cx.opts.punct) {l : List Char} {ns : List Node}
    (hl : TextPart l) (h : PartNodes src l ns) (rest : List Node) :
    collectInlines (withSource cx src) (ns ++ rest) =
      Inl.append (transformPunctuation cx.uni cx.opts.punct l, []) (collectInlines (withSource cx src) rest) ∧
    collectTexts (withSource cx src) (ns ++ rest) =
      Inl.append (transformPunctuation cx.uni cx.opts.punct l, []) (collectTexts (withSource cx src) rest) ∧
    footnoteRefLinesList (ns ++ rest) = footnoteRefLinesList rest ∧
    (nodesTextContain '*' ns = false) := by
  rcases h with ⟨rfl, rfl⟩ | ⟨p, h0, rfl, hp⟩
  · have e := pairs_length (transform_curly ho hl)
    rw [List.length_nil] at e
    rw [List.eq_nil_of_length_eq_zero e.symm]
    simp [Inl.append, nodesTextContain]
  · have hlast : l.getLast? ≠ some '\n' := fun e => textPart_not_mem hl '\n' (by decide) (by decide) (List.mem_of_getLast? e)
    have : textNode (withSource cx src) l p = transformPunctuation cx.uni cx.opts.punct l :=
      textNode_curl (cx := withSource cx src) ho hl (extract_standsAt hr hp h0 hlast)
    have hc := textPart_not_mem hl '*' (by decide) (by decide)
    simp [collectInlines, collectInline, collectTexts, collectText, this, Inl.append, footnoteRefLinesList, footnoteRefLines, nodesTextContain,
      nodeTextContains, hc]

/-- What is collected for nodes: text with line breaks as zeroes or as spaces. -/
def Collects (cx : Cx) (t : List Char) (ns : List Node) : Prop :=
  ∀ rest, collectInlines cx (ns ++ rest) = Inl.append (t.map (softChar '\x00'), []) (collectInlines cx rest) ∧
    collectTexts cx (ns ++ rest) = Inl.append (t.map (softChar ' '), []) (collectTexts cx rest) ∧
    footnoteRefLinesList (ns ++ rest) = footnoteRefLinesList rest ∧
    nodesTextContain '*' (ns ++ rest) = nodesTextContain '*' rest

theorem collects_nil (cx : Cx) : Collects cx [] [] := fun rest => by simp [Inl.append]

theorem inl_append_assoc (a b c : Inl) : (a.append b).append c = a.append (b.append c) := by simp [Inl.append]

theorem collects_append {cx : Cx} {t u : List Char} {ns ms : List Node} (h1 : Collects cx t ns) (h2 : Collects cx u ms) :
    Collects cx (t ++ u) (ns ++ ms) := by
  intro rest
  rw [List.append_assoc]
  obtain ⟨a1, a2, a3, a4⟩ := h1 (ms ++ rest)
  obtain ⟨b1, b2, b3, b4⟩ := h2 rest
  refine ⟨?_, ?_, by rw [a3, b3], by rw [a4, b4]⟩
  · rw [a1, b1]; simp [Inl.append]
  · rw [a2, b2]; simp [Inl.append]

theorem nodesTextContain_append (c : Char) : ∀ (a b : List Node), nodesTextContain c (a ++ b) = (nodesTextContain c a || nodesTextContain c b)
  | [], b => by simp [nodesTextContain]
  | n :: a, b => by simp [nodesTextContain, nodesTextContain_append c a b, Bool.or_assoc]

theorem collects_part {cx : Cx} {src : List Char} (hr : '\r' ∉ src) (ho : DashesOk cx.opts.punct) {l : List Char} {ns : List Node}
    (hl : TextPart l) (h : PartNodes src l ns) : Collects (withSource cx src) (transformPunctuation cx.uni cx.opts.punct l) ns := by
  intro rest
  obtain ⟨a1, a2, a3, a4⟩ := partNodes_texts (cx := cx) hr ho hl h rest
  have hn : '\n' ∉ transformPunctuation cx.uni cx.opts.punct l := fun hm => by
    rcases transform_chars ho hl _ hm with e | e
    · exact absurd e (by decide)
    · exact absurd e (by decide)
  rw [map_soft hn, map_soft hn]
  exact ⟨a1, a2, a3, by rw [nodesTextContain_append, a4]; rfl⟩

theorem collects_soft (cx : Cx) (q : Pos) : Collects cx ['\n'] [.mk .softBreak q []] := by
  intro rest
  simp [collectInlines, collectInline, collectTexts, collectText, Inl.append, footnoteRefLinesList, footnoteRefLines, nodesTextContain,
      nodeTextContains, softChar]

theorem collects_texts {cx : Cx} {src : List Char} (hr : '\r' ∉ src) (ho : DashesOk cx.opts.punct) :
    ∀ (ls : List (List Char)) (ns : List Node), (∀ l ∈ ls, TextPart l) → TextNodes src ls ns →
      Collects (withSource cx src) (joinWith ['\n'] (ls.map (transformPunctuation cx.uni cx.opts.punct))) ns
  | [], ns, _, h => by rw [TextNodes] at h; subst h; exact collects_nil _
  | [l], ns, hl, h => by
    rw [TextNodes] at h
    exact collects_part hr ho (hl l (by simp)) h
  | l :: m :: ls, ns, hl, h => by
    rw [TextNodes] at h
    · obtain ⟨a, q, rest, rfl, hp, hn⟩ := h
      have ih := collects_texts hr ho (m :: ls) rest (fun x hx => hl x (by simp [hx])) hn
      rw [List.map_cons, joinWith_cons _ _ (by simp), List.append_assoc]
      exact collects_append (collects_part hr ho (hl l (by simp)) hp) (collects_append (ns := [_]) (collects_soft _ q) ih)
    · simp

theorem collects_span {cx : Cx} {src : List Char} (hr : '\r' ∉ src) (ho : DashesOk cx.opts.punct) {s : Span} (hs : SpanOk s)
    {ns : List Node} (h : SpanNodes src s ns) : Collects (withSource cx src) (spanText (curlSpan cx s)) ns := by
  cases s with
  | text t =>
    exact collects_texts (cx := cx) hr ho (splitOn '\n' t) ns (splitOn_parts hs) h
  | code t =>
    obtain ⟨p, rfl, hp⟩ := h
    have hc := codeNode_plain (cx := cx) hr hs hp
    have hn : '\n' ∉ spanText (.code t) := by
      simp only [spanText, List.mem_append, List.mem_singleton, not_or]
      exact ⟨⟨by decide, codeSpan_nl hs⟩, by decide⟩
    intro rest
    rw [curlSpan, map_soft hn, map_soft hn]
    simp [collectInlines, collectInline, collectTexts, collectText, Inl.append, footnoteRefLinesList, footnoteRefLines, nodesTextContain,
      nodeTextContains, hc, spanText]

theorem collects_spans {cx : Cx} {src : List Char} (hr : '\r' ∉ src) (ho : DashesOk cx.opts.punct) :
    ∀ {ss : List Span}, SpansOk ss → ∀ {ns : List Node}, SpansNodes src ss ns →
      Collects (withSource cx src) (spansText (ss.map (curlSpan cx))) ns
  | [], _, ns, h => by rw [SpansNodes] at h; subst h; exact collects_nil _
  | s :: r, hs, ns, h => by
    obtain ⟨a, b, rfl, h1, h2⟩ := h
    rw [List.map_cons, spansText_cons]
    exact collects_append (collects_span hr ho hs.1 h1) (collects_spans hr ho hs.2.2 h2)

theorem collects_emph {cx : Cx} {src : List Char} (hr : '\r' ∉ src) {d : Char} (hd : d = '*' ∨ d = '_') (strong : Bool)
    {t raw : List Char} {p : Pos} {cs : List Node} (hc : Collects (withSource cx src) t cs) (hp : StandsAt src p raw)
    (h1 : emphMark d strong <+: raw) (h2 : raw.getLast? = some d) :
    Collects (withSource cx src) (emphMark d strong ++ t ++ emphMark d strong) [.mk (if strong then .strong else .emph) p cs] := by
  have h0 : raw ≠ [] := by rintro rfl; cases h2
  have he := extract_standsAt (cx := cx) hr hp h0 (by rw [h2]; rcases hd with rfl | rfl <;> decide)
  have hm : (emphMark d strong).map (softChar '\x00') = emphMark d strong := map_soft (mark_nl hd strong)
  have hm' : (emphMark d strong).map (softChar ' ') = emphMark d strong := map_soft (mark_nl hd strong)
  obtain ⟨c1, c2, c3, c4⟩ := hc []
  simp only [List.append_nil] at c1 c2 c3 c4
  obtain ⟨more, rfl⟩ := h1
  intro rest
  rw [List.map_append, List.map_append, List.map_append, List.map_append, hm, hm']
  cases strong with
  | true =>
    have hdel : strongDelimiter (withSource cx src) (.mk .strong p cs) = [d, d] := by
      unfold strongDelimiter
      rw [show (Node.mk NodeValue.strong p cs).pos = p from rfl, he]
      simp only [nodeTextContains, c4, nodesTextContain]
      rcases hd with rfl | rfl <;> simp [emphMark]
    simp [collectInlines, collectInline, collectTexts, collectText, Inl.append, footnoteRefLinesList, footnoteRefLines, nodesTextContain,
      nodeTextContains, hdel, c1, c2, c3, c4, emphMark]
  | false =>
    have hdel : emphDelimiter (withSource cx src) (.mk .emph p cs) = d := by
      unfold emphDelimiter
      rw [show (Node.mk NodeValue.emph p cs).pos = p from rfl, he]
      simp only [nodeTextContains, c4, nodesTextContain]
      rcases hd with rfl | rfl <;> simp [emphMark]
    simp [collectInlines, collectInline, collectTexts, collectText, Inl.append, footnoteRefLinesList, footnoteRefLines, nodesTextContain,
      nodeTextContains, hdel, c1, c2, c3, c4, emphMark]

/-! ### Links -/

theorem link_clean {t : List Char} (h : LinkOk t) : CleanLine t := by
  have hw : ∀ c ∈ t, isWs c = true → c = ' ' := by
    intro c hc hw
    rcases link_char h hc with e | e
    · rw [rawChar_not_ws (by simp [rawChar, e])] at hw; cases hw
    · exact e
  refine ⟨link_ne_nil h, trim_of_ends ?_ ?_, hw, h.2.2.2.2.1⟩
  · intro c hc
    rw [Bool.eq_false_iff]
    intro e
    rw [hw c (List.mem_of_mem_head? hc) e] at hc
    exact h.2.2.1 hc
  · intro c hc
    rw [Bool.eq_false_iff]
    intro e
    rw [hw c (List.mem_of_getLast? hc) e] at hc
    exact h.2.2.2.1 hc

theorem link_normalize {t : List Char} (h : LinkOk t) : normalizeWhitespace t = t := by
  have hz : '\x00' ∉ t := link_not_mem h _ (by decide) (by decide)
  have e := words_clean (link_clean h) hz
  rw [words_eq_splitWs, softToSpace_id (fun c hc e => hz (e ▸ hc))] at e
  rw [normalizeWhitespace, e, join_splitOn]

theorem openAfter_plain : ∀ (t : List Char), '[' ∉ t → ']' ∉ t → ∀ d, openAfter d t = some d
  | [], _, _, d => by rw [openAfter]
  | c :: t, h1, h2, d => by
    simp only [List.mem_cons, not_or] at h1 h2
    rw [openAfter_other (Ne.symm h1.1) (Ne.symm h2.1), openAfter_plain t h1.2 h2.2]

theorem link_style {t : List Char} (h : LinkOk t) (after : List Char) :
    referenceStyle (['['] ++ t ++ [']'] ++ after) = styleAfter t after := by
  have := referenceStyle_front [] (.inl rfl) t after
    (openAfter_plain t (link_not_mem h _ (by decide) (by decide)) (link_not_mem h _ (by decide) (by decide)) 0)
  rw [← this]
  congr 1
  simp

/-- The references of content. -/
def runRefs (links : LinkMap) : List Run → List Ref
  | [] => []
  | .link t :: r => (match links t with | some (url, title) => [⟨t, url, title⟩] | none => []) ++ runRefs links r
  | _ :: r => runRefs links r

theorem link_part {t : List Char} (h : LinkOk t) : TextPart t :=
  ⟨fun _ hc => (link_char h hc).symm, h.2.2.2.2.2.1, h.2.2.2.2.2.2.1, h.2.2.2.2.2.2.2⟩

theorem partNodes_raw {src t : List Char} {cs : List Node} (h : PartNodes src t cs) :
    rawTexts cs = t ∧ cs.any Node.isImage = false := by
  rcases h with ⟨rfl, rfl⟩ | ⟨p, _, rfl, _⟩
  · exact ⟨rfl, rfl⟩
  · simp [rawTexts, rawText, Node.isImage]

theorem external_url {url : List Char} (h : external url) : isExternalUrl url = true := by
  rw [isExternalUrl, Bool.or_eq_true]
  rcases h with h | h
  · exact .inl (List.isPrefixOf_iff_prefix.2 h)
  · exact .inr (List.isPrefixOf_iff_prefix.2 h)

theorem collect_link {cx : Cx} {src : List Char} (hr : '\r' ∉ src) (ho : DashesOk cx.opts.punct) {t url title raw : List Char} (h : LinkOk t) (hq : MarksKept cx t)
    {p : Pos} {cs : List Node} (hc : PartNodes src t cs) (hp : StandsAt src p raw) (hl : LinkSource t (url, title) raw) :
    collectInline (withSource cx src) false (.mk (.link url title) p cs) = (['['] ++ t ++ [']'], [⟨t, url, title⟩]) ∧
    collectText (withSource cx src) (.mk (.link url title) p cs) = (['['] ++ t ++ [']'], [⟨t, url, title⟩]) := by
  have hn := link_normalize h
  have hz : ∀ c ∈ t, c ≠ '\x00' := fun c hc e => link_not_mem h '\x00' (by decide) (by decide) (e ▸ hc)
  obtain ⟨c1, c2⟩ := partNodes_raw hc
  have c3 : collectInlines (withSource cx src) cs = (t, []) := by
    have := (partNodes_texts (cx := cx) hr ho (link_part h) hc []).1
    rw [transform_plain ho (link_part h) hq] at this
    simpa [collectInlines, Inl.append] using this
  have hfr : formatReference [] t t url title = (['['] ++ t ++ [']'], [⟨t, url, title⟩]) := by
    unfold formatReference
    split
    · rename_i e
      exact absurd (by simp) (link_not_mem h '\x01' (by decide) (by decide))
    · simp
  rcases hl with rfl | ⟨x, rfl, hlast, hx, hext, hne⟩
  · have hs : referenceStyleInfo (withSource cx src) p = some (t, t) := by
      rw [referenceStyleInfo, extract_standsAt hr hp (by simp) (by rw [List.getLast?_append]; simp)]
      have := link_style h []
      rw [List.append_nil] at this
      rw [Option.bind_some, this]
      simp [styleAfter, hn]
    simp [collectInline, collectText, hs, c2, hfr]
  · have hs : referenceStyleInfo (withSource cx src) p = none := by
      rw [referenceStyleInfo, extract_standsAt hr hp (by simp) (by rw [hlast]; decide)]
      rw [Option.bind_some, link_style h x]
      have : x.head? = some '(' := by
        unfold readInlineTarget at hx
        split at hx
        · rfl
        · cases hx
      unfold styleAfter
      rw [if_pos this]
    have he := external_url hext
    have ha : ¬ (title = [] ∧ rawTexts cs = url) := by rw [c1]; exact fun e => hne e.2
    constructor
    · rw [collectInline]
      simp only [hs, c2, Bool.false_eq_true, if_false, if_neg ha, he, if_true, c3, formatExternalLink, softToSpace_id hz]
      simp
    · rw [collectText]
      simp only [hs, he, if_true, c1, formatExternalLink, softToSpace_id hz]
      simp

theorem not_external {url : List Char} (h : ¬ external url) : isExternalUrl url = false := by
  rw [isExternalUrl, Bool.or_eq_false_iff]
  constructor
  · exact Bool.eq_false_iff.2 fun e => h (.inl (List.isPrefixOf_iff_prefix.1 e))
  · exact Bool.eq_false_iff.2 fun e => h (.inr (List.isPrefixOf_iff_prefix.1 e))

theorem collect_direct {cx : Cx} {src : List Char} (hr : '\r' ∉ src) (ho : DashesOk cx.opts.punct) {image : Bool} {t url : List Char}
    (h : LinkOk t ∧ AddressOk image t url) (hx : ¬ OtherSite (.direct image t url)) (hq : MarksKept cx t) {p : Pos} {cs : List Node} (hc : PartNodes src t cs)
    (hp : StandsAt src p (runText (.direct image t url))) :
    collectInline (withSource cx src) false (.mk (if image then .image url [] else .link url []) p cs) = (runText (.direct image t url), []) ∧
    collectText (withSource cx src) (.mk (if image then .image url [] else .link url []) p cs) = (runText (.direct image t url), []) := by
  obtain ⟨c1, c2⟩ := partNodes_raw hc
  have c3 : collectInlines (withSource cx src) cs = (t, []) := by
    have := (partNodes_texts (cx := cx) hr ho (link_part h.1) hc []).1
    rw [transform_plain ho (link_part h.1) hq] at this
    simpa [collectInlines, Inl.append] using this
  have hs : referenceStyleInfo (withSource cx src) p = none := by
    rw [referenceStyleInfo, extract_standsAt hr hp (by simp [runText])
      (by rw [runText, ← List.append_assoc, List.getLast?_append]; simp)]
    have := referenceStyle_front (bangOf image) (by cases image <;> simp [bangOf]) t (['('] ++ url ++ [')'])
      (openAfter_plain t (link_not_mem h.1 _ (by decide) (by decide)) (link_not_mem h.1 _ (by decide) (by decide)) 0)
    rw [Option.bind_some, show runText (.direct image t url) = bangOf image ++ ('[' :: t ++ ']' :: (['('] ++ url ++ [')'])) by simp [runText], this]
    simp [styleAfter]
  cases image with
  | true =>
    constructor
    · rw [if_pos rfl, collectInline]
      simp [hs, c3, formatInlineLink, titlePart, runText, bangOf]
    · rw [if_pos rfl, collectText]
      simp [c1, formatInlineLink, titlePart, runText, bangOf]
  | false =>
    have hx : t ≠ url ∧ ¬ external url := ⟨by simpa using h.2.2.2, hx⟩
    have he := not_external hx.2
    constructor
    · rw [if_neg (by simp), collectInline]
      simp only [hs, c2, Bool.false_eq_true, if_false, c1, true_and, if_neg hx.1, he, c3]
      simp [formatInlineLink, titlePart, runText, bangOf]
    · rw [if_neg (by simp), collectText]
      simp [hs, he, c1, formatInlineLink, titlePart, runText, bangOf]

theorem spanNodes_bracket {src : List Char} {s : Span} (hs : SpanOk s) {a : List Node} (h : SpanNodes src s a) (b : List Node) :
    nextIsBracket (a ++ b) = false := by
  cases s with
  | code t => obtain ⟨p, rfl, _⟩ := h; rfl
  | text t =>
    have h : TextNodes src (splitOn '\n' t) a := h
    have hj := join_splitOn '\n' t
    have part : ∀ {l : List Char} {ns : List Node} (rest : List Node), PartNodes src l ns → ns ≠ [] → nextIsBracket (ns ++ rest) = false := by
      rintro l ns rest (⟨_, rfl⟩ | ⟨p, _, rfl, _⟩) h0
      · exact absurd rfl h0
      · rfl
    cases hx : splitOn '\n' t with
    | nil => exact absurd hx (splitOn_ne_nil _ _)
    | cons l ls =>
      rw [hx] at h hj
      cases ls with
      | nil =>
        rw [TextNodes] at h
        refine part b h ?_
        rintro rfl
        rcases h with ⟨rfl, _⟩ | ⟨_, _, h, _⟩
        · exact hs.1 (by rw [← hj]; rfl)
        · cases h
      | cons m ls =>
        rw [TextNodes] at h
        · obtain ⟨a, q, rest, rfl, hp, hn⟩ := h
          rcases hp with ⟨_, rfl⟩ | ⟨p, _, rfl, _⟩ <;> rfl
        · simp

theorem runNodes_bracket {src : List Char} {links : LinkMap} {r : List Run} {p : Option Char} (hr : RunsOk p r)
    (hp : p.all beforeLink = false) (ha : (runsText r).head?.all afterLink = true) {b : List Node} (h : RunNodes src links r b) : nextIsBracket b = false := by
  cases r with
  | nil => rw [RunNodes] at h; subst h; rfl
  | cons x r =>
    cases x with
    | span s =>
      obtain ⟨a, c, rfl, h1, _⟩ := h
      exact spanNodes_bracket hr.1 h1 c
    | emph d strong inner =>
      obtain ⟨q, cs, c, raw, rfl, _⟩ := h
      cases strong <;> rfl
    | link t => rw [runsText_cons] at ha; exact absurd ha (by simp [runText, afterLink, gapChar])
    | direct image t url =>
      have := hr.2.1
      rw [hp] at this
      cases this

theorem collects_runs {cx : Cx} {src : List Char} {links : LinkMap} (hr : '\r' ∉ src) (ho : DashesOk cx.opts.punct) :
    ∀ {a : List Run} {p : Option Char}, RunsOk p a → MarksKept cx (a.flatMap linkWords) → (∀ r ∈ a, ¬ OtherSite r) → ∀ {ns : List Node}, RunNodes src links a ns →
      collectInlines (withSource cx src) ns = ((runsText (a.map (curlRun cx))).map (softChar '\x00'), runRefs links a) ∧
      collectTexts (withSource cx src) ns = ((runsText (a.map (curlRun cx))).map (softChar ' '), runRefs links a)
  | [], _, _, _, _, ns, h => by rw [RunNodes] at h; subst h; simp [collectInlines, collectTexts, runsText, runRefs]
  | .span s :: r, _, hs, hq, hx, ns, h => by
    rw [List.flatMap_cons] at hq
    have hq2 := marksKept_mono hq (List.subset_append_right _ _)
    obtain ⟨a, b, rfl, h1, h2⟩ := h
    obtain ⟨e1, e2⟩ := collects_runs hr ho hs.2.2 hq2 (fun x hm => hx x (by simp [hm])) h2
    obtain ⟨f1, f2, _⟩ := collects_span (cx := cx) hr ho hs.1 h1 b
    rw [f1, f2, e1, e2, List.map_cons, runsText_cons]
    simp [Inl.append, runRefs, runText, curlRun]
  | .emph d strong inner :: r, _, hs, hq, hx, ns, h => by
    rw [List.flatMap_cons] at hq
    have hq2 := marksKept_mono hq (List.subset_append_right _ _)
    obtain ⟨p, cs, b, raw, rfl, h1, h2, h3, h4, h5⟩ := h
    obtain ⟨e1, e2⟩ := collects_runs hr ho hs.2.2.2.2 hq2 (fun x hm => hx x (by simp [hm])) h5
    obtain ⟨f1, f2, _⟩ := collects_emph hr hs.1 strong (collects_spans (cx := cx) hr ho hs.2.1 h1) h2 h3 h4 b
    rw [List.singleton_append] at f1 f2
    rw [f1, f2, e1, e2, List.map_cons, runsText_cons]
    simp [Inl.append, runRefs, runText, curlRun]
  | .link t :: r, _, hs, hq, hx, ns, h => by
    rw [List.flatMap_cons] at hq
    have hq1 := marksKept_mono hq (List.subset_append_left _ _)
    have hq2 := marksKept_mono hq (List.subset_append_right _ _)
    obtain ⟨p, cs, b, raw, url, title, rfl, h1, h2, h3, h4, h5⟩ := h
    obtain ⟨e1, e2⟩ := collects_runs hr ho hs.2.2.2 hq2 (fun x hm => hx x (by simp [hm])) h5
    obtain ⟨f1, f2⟩ := collect_link hr ho hs.1 hq1 h2 h3 h4
    rw [collectInlines, collectTexts, runNodes_bracket hs.2.2.2 (by decide) hs.2.2.1 h5, f1, f2, e1, e2, List.map_cons, curlRun, runsText_cons, List.map_append, List.map_append,
      runText, map_soft (link_nl hs.1), map_soft (link_nl hs.1)]
    simp [Inl.append, runRefs, h1]
  | .direct image t url :: r, _, hs, hq, hx, ns, h => by
    rw [List.flatMap_cons] at hq
    have hq1 := marksKept_mono hq (List.subset_append_left _ _)
    have hq2 := marksKept_mono hq (List.subset_append_right _ _)
    obtain ⟨p, cs, b, rfl, h2, h3, h5⟩ := h
    obtain ⟨e1, e2⟩ := collects_runs hr ho hs.2.2.2 hq2 (fun x hm => hx x (by simp [hm])) h5
    obtain ⟨f1, f2⟩ := collect_direct hr ho hs.1 (hx _ (by simp)) hq1 h2 h3
    rw [collectInlines, collectTexts, runNodes_bracket hs.2.2.2 (by decide) hs.2.2.1 h5, f1, f2, e1, e2, List.map_cons, curlRun, runsText_cons, List.map_append, List.map_append,
      map_soft (direct_nl hs.1), map_soft (direct_nl hs.1)]
    simp [Inl.append, runRefs]

theorem textLine_nl {l : List Char} (h : TextLine l) : '\n' ∉ l := textLine_not_mem h '\n' (by decide) (by decide)

theorem content_unique {ls : List (List Char)} {a b : List Run} (ha : ContentReads ls a) (hb : ContentReads ls b) : a = b :=
  runs_unique ha.2 hb.2 (ha.1.trans hb.1.symm)

theorem runRefs_none : ∀ (a : List Run), runRefs noLinks a = []
  | [] => rfl
  | .link t :: r => by rw [runRefs, runRefs_none r]; rfl
  | .span _ :: r => by rw [runRefs, runRefs_none r]; exact nofun
  | .emph _ _ _ :: r => by rw [runRefs, runRefs_none r]; exact nofun
  | .direct _ _ _ :: r => by rw [runRefs, runRefs_none r]; exact nofun

theorem curlLines_reads {cx : Cx} {ls : List (List Char)} {a : List Run} (ha : ContentReads ls a) :
    curlLines cx ls = splitOn '\n' (runsText (a.map (curlRun cx))) := by
  have h : ∃ a, ContentReads ls a := ⟨a, ha⟩
  rw [curlLines, dif_pos h, content_unique h.choose_spec ha]

theorem collects_lines {cx : Cx} {src : List Char} {links : LinkMap} (hr : '\r' ∉ src) (ho : DashesOk cx.opts.punct) {ls : List (List Char)}
    {ns : List Node} {a : List Run} (ha : ContentReads ls a) (hq : LinkMarksKept cx ls) (h : LineNodes src links ls ns) :
    collectInlines (withSource cx src) ns = (joinWith ['\x00'] (curlLines cx ls), runRefs links a) ∧
    collectTexts (withSource cx src) ns = (joinWith [' '] (curlLines cx ls), runRefs links a) := by
  obtain ⟨b, hb, hn⟩ := h
  obtain rfl := content_unique ha hb
  obtain ⟨e1, e2⟩ := collects_runs (cx := cx) hr ho ha.2 (hq a ha).1 (hq a ha).2 hn
  rw [curlLines_reads ha]
  rw [← join_splitOn '\n' (runsText (a.map (curlRun cx))), map_joinWith_soft _ _ (splitOn_not_mem _ _)] at e1 e2
  exact ⟨e1, e2⟩

/-- Content does not begin with an asterisk and a bracket. -/
theorem runs_no_definition {a : List Run} {p : Option Char} (h : RunsOk p a) : ¬ ['*', '['] <+: runsText a := by
  have key : ∀ {s : Span} {x : List Char}, SpanOk s → (spanText s ++ x).head? ≠ some '*' ∧ (spanText s ++ x).head? ≠ some '[' := by
    intro s x hs
    cases s with
    | text t =>
      cases t with
      | nil => exact absurd rfl hs.1
      | cons c t =>
        have hc := hs.2.1 c (by simp)
        simp only [spanText, List.cons_append, List.head?_cons, ne_eq, Option.some.injEq]
        exact ⟨textChar_ne hc _ (by decide) (by decide), textChar_ne hc _ (by decide) (by decide)⟩
    | code t => simp [spanText]
  cases a with
  | nil => rintro ⟨x, e⟩; simp [runsText] at e
  | cons r a =>
    rintro ⟨x, e⟩
    cases r with
    | span s =>
      rw [runsText_cons, runText] at e
      exact (key (x := runsText a) h.1).1 (by rw [← e]; rfl)
    | direct image t url =>
      obtain ⟨c, y, e3, h3⟩ := direct_first (image := image) (t := t) (url := url) (runsText a)
      rw [runsText_cons, e3] at e
      rcases h3 with h3 | h3 <;> rw [h3] at e <;> exact absurd (List.cons.inj e).1 (by decide)
    | emph d strong inner =>
      rw [runsText_cons, runText] at e
      have ho := h.2.2.1
      cases inner with
      | nil => simp [opens, spansText] at ho
      | cons s r =>
        rcases h.1 with rfl | rfl
        · cases strong with
          | true => simp [emphMark] at e
          | false =>
            rw [spansText_cons] at e
            simp only [emphMark, Bool.false_eq_true, if_false, List.cons_append, List.nil_append, List.append_assoc, List.cons.injEq, true_and] at e
            exact (key (x := spansText r ++ '*' :: runsText a) h.2.1.1).2 (by rw [← e]; rfl)
        · cases strong <;> simp [emphMark] at e
    | link t =>
      rw [runsText_cons, runText] at e
      simp at e

/-- What is written for a block. -/
def coreText (cx : Cx) : CoreBlock → List Char
  | .heading level ls => headingText cx level (joinWith [' '] ls)
  | .paragraph ls => wrapText cx.width (joinWith ['\x00'] ls) [] cx.opts.lineWidth ++ ['\n']
  | .code info ls => codeBlockText cx false info (unlines ls)
  | .rule => spaces cx.opts.thematicBreakLeadingSpaces ++ cx.opts.thematicBreakStyle ++ ['\n']
  | .definition label target => referenceText ⟨label, target.1, target.2⟩

/-- The level of a heading. -/
def coreLevel : CoreBlock → Option Nat
  | .heading level _ => some level
  | _ => none

/-- The blank lines before a block. -/
def coreGap (prev : Option CoreBlock) (b : CoreBlock) : List Char :=
  match prev with
  | none => []
  | some p => if coreLevel b = some 2 then if (coreLevel p).isSome then ['\n'] else ['\n', '\n'] else ['\n']

/-- What is written for a document. -/
def coreDoc (cx : Cx) : Option CoreBlock → List CoreBlock → List Char
  | _, [] => []
  | prev, b :: bs => coreGap prev b ++ coreText cx b ++ coreDoc cx (some b) bs

/-- The lines of a block are plain text. -/
def CoreValid : CoreBlock → Prop
  | .heading level ls => (1 ≤ level ∧ level ≤ 6) ∧ ls ≠ [] ∧ (∀ l ∈ ls, TextLine l) ∧ ∃ a, ContentReads ls a
  | .paragraph ls => ls ≠ [] ∧ (∀ l ∈ ls, TextLine l) ∧ ∃ a, ContentReads ls a
  | .code info ls => AreLines ls ∧ (∀ c ∈ info, c ≠ '\n' ∧ c ≠ '\r' ∧ c ≠ '\x00' ∧ c ≠ '\\' ∧ c ≠ '&') ∧
      ∀ l ∈ ls, '\r' ∉ l ∧ '\x00' ∉ l
  | .rule => True
  | .definition label target => LinkOk label ∧ TargetOk target

/-- The lines of a block are lines of text, whatever their content. -/
def LinesValid : CoreBlock → Prop
  | .heading level ls => (1 ≤ level ∧ level ≤ 6) ∧ ls ≠ [] ∧ ∀ l ∈ ls, TextLine l
  | .paragraph ls => ls ≠ [] ∧ ∀ l ∈ ls, TextLine l
  | .code info ls => CoreValid (.code info ls)
  | .rule => True
  | .definition label target => LinkOk label ∧ TargetOk target

theorem coreValid_of {links : LinkMap} {b : CoreBlock} (h : LinesValid b) (hc : HasContent links b) : CoreValid b := by
  cases b with
  | heading level ls => exact ⟨h.1, h.2.1, h.2.2, hc.imp fun _ h => h.1⟩
  | paragraph ls => exact ⟨h.1, h.2, hc.imp fun _ h => h.1⟩
  | code info ls => exact h
  | rule => trivial
  | definition _ _ => exact h

theorem flatRun_link {a b : List Run} (h : a.map flatRun = b.map flatRun) (t : List Char) : .link t ∈ a ↔ .link t ∈ b := by
  have key : ∀ x : List Run, .link t ∈ x ↔ .link t ∈ x.map flatRun := by
    intro x
    rw [List.mem_map]
    constructor
    · exact fun h => ⟨_, h, rfl⟩
    · rintro ⟨y, hy, e⟩
      cases y with
      | span s => cases e
      | emph d st i => cases e
      | link u => rw [flatRun] at e; rwa [e] at hy
      | direct _ _ _ => cases e
  rw [key a, key b, h]

theorem hasContent_same {links : LinkMap} {dflt : List Char} {b b' : CoreBlock} (h : SameBlock dflt b b') (hc : HasContent links b) :
    HasContent links b' := by
  have key : ∀ {ls ls' : List (List Char)}, SameContent ls ls' → (∃ a, ContentReads ls a ∧ Linked links a) →
      ∃ a, ContentReads ls' a ∧ Linked links a := by
    rintro ls ls' ⟨a, b, ha, hb, e⟩ ⟨c, hc, hl⟩
    obtain rfl := content_unique ha hc
    exact ⟨b, hb, fun t ht => hl t ((flatRun_link e t).2 ht)⟩
  cases b <;> cases b' <;> first | trivial | exact absurd h id | exact key h.2.2 hc | exact key h.2 hc

theorem sameDoc_content {links : LinkMap} {dflt : List Char} : ∀ {d d' : List CoreBlock}, SameDoc dflt d d' → (∀ b ∈ d, HasContent links b) →
    ∀ b ∈ d', HasContent links b
  | [], [], _, _ => fun b hb => absurd hb (by simp)
  | [], _ :: _, h, _ => absurd h id
  | _ :: _, [], h, _ => absurd h id
  | b :: bs, c :: cs, h, hc => fun x hx => by
    rcases List.mem_cons.1 hx with rfl | hx
    · exact hasContent_same h.1 (hc b (by simp))
    · exact sameDoc_content h.2 (fun y hy => hc y (by simp [hy])) x hx

/-- The references of a block. -/
noncomputable def leafRefs (links : LinkMap) : CoreBlock → List Ref
  | .heading _ ls => open Classical in if h : ∃ a, ContentReads ls a then runRefs links h.choose else []
  | .paragraph ls => open Classical in if h : ∃ a, ContentReads ls a then runRefs links h.choose else []
  | _ => []

theorem leafRefs_heading {links : LinkMap} {level : Nat} {ls : List (List Char)} {a : List Run} (h : ContentReads ls a) :
    leafRefs links (.heading level ls) = runRefs links a := by
  have he : ∃ a, ContentReads ls a := ⟨a, h⟩
  rw [leafRefs, dif_pos he, content_unique he.choose_spec h]

theorem leafRefs_paragraph {links : LinkMap} {ls : List (List Char)} {a : List Run} (h : ContentReads ls a) :
    leafRefs links (.paragraph ls) = runRefs links a := by
  have he : ∃ a, ContentReads ls a := ⟨a, h⟩
  rw [leafRefs, dif_pos he, content_unique he.choose_spec h]

theorem leafRefs_none (b : CoreBlock) : leafRefs noLinks b = [] := by
  cases b <;> simp [leafRefs, runRefs_none]

/-- The pending references after more references. -/
def addRefs (m : List (List Char × Ref)) (rs : List Ref) : List (List Char × Ref) := rs.foldl (fun m r => mapInsert r.label r m) m

theorem addRefs_append (m : List (List Char × Ref)) (r s : List Ref) : addRefs m (r ++ s) = addRefs (addRefs m r) s := by
  simp [addRefs]

/-- The state after more text and references. -/
def St.wrote (st : St) (text : List Char) (refs : List Ref) : St :=
  { st with output := st.output ++ text, pendingReferences := addRefs st.pendingReferences refs }

theorem wrote_wrote (st : St) (a b : List Char) (r s : List Ref) : (st.wrote a r).wrote b s = st.wrote (a ++ b) (r ++ s) := by
  simp [St.wrote, addRefs_append]

theorem push_wrote (st : St) (a b : List Char) (s : List Ref) : (st.push a).wrote b s = st.wrote (a ++ b) s := by
  simp [St.wrote, St.push]

theorem wrote_push (st : St) (a b : List Char) (r : List Ref) : (st.wrote a r).push b = st.wrote (a ++ b) r := by
  simp [St.wrote, St.push]

theorem addReferences_plain : ∀ (rs : List Ref) (st : St), st.footnotes.collecting = false → addReferences st rs = st.wrote [] rs
  | [], st, _ => by simp [addReferences, St.wrote, addRefs]
  | r :: rs, st, h => by
    have := addReferences_plain rs (addReference st r) (by rw [addReference]; simp [h])
    unfold addReferences at this ⊢
    rw [List.foldl_cons, this, addReference]
    simp [St.wrote, h, addRefs]

/-- The state between top-level blocks, with pending references and emitted labels. -/
def coreSt (ws : List Warning) (rs : List (List Char × Ref) × List (List Char)) (out : List Char) : St :=
  { warnings := ws, output := out, pendingReferences := rs.1, emittedReferences := rs.2 }

theorem headingText_withSource (cx : Cx) (src : List Char) : headingText (withSource cx src) = headingText cx := rfl

theorem codeBlockText_withSource (cx : Cx) (src : List Char) : codeBlockText (withSource cx src) = codeBlockText cx := rfl

theorem joinLines_ne_nil {ls : List (List Char)} (h0 : ls ≠ []) (h : ∀ l ∈ ls, TextLine l) : joinWith ['\n'] ls ≠ [] := by
  cases ls with
  | nil => exact absurd rfl h0
  | cons a r =>
    have := textLine_ne_nil (h a (by simp))
    cases r with
    | nil => exact this
    | cons b r => rw [joinWith_cons _ _ (by simp)]; simp [this]

theorem joinLines_end {ls : List (List Char)} (h0 : ls ≠ []) (h : ∀ l ∈ ls, TextLine l) :
    ∀ c ∈ (joinWith ['\n'] ls).getLast?, rawChar c = true := by
  obtain ⟨a, l, rfl⟩ := (List.eq_nil_or_concat ls).resolve_left h0
  have hl := h l (by simp)
  cases hx : l.getLast? with
  | none => exact absurd (List.getLast?_eq_none_iff.1 hx) (textLine_ne_nil hl)
  | some x =>
    have := joinWith_end ['\n'] (c := x) (a.concat l) h0 (by simpa using hx)
    rw [this]
    intro c hc
    cases hc
    exact textLine_last hl _ hx

theorem joinLines_last {ls : List (List Char)} (h0 : ls ≠ []) (h : ∀ l ∈ ls, TextLine l) :
    (joinWith ['\n'] ls).getLast? ≠ some '\n' := fun e => absurd (joinLines_end h0 h _ e) (by decide)

theorem joinLines_start {ls : List (List Char)} (h : ∀ l ∈ ls, TextLine l) :
    ∀ c ∈ (joinWith ['\n'] ls).head?, rawChar c = true := by
  intro c hc
  cases ls with
  | nil => cases hc
  | cons a r =>
    have ha := h a (by simp)
    have h0 := textLine_ne_nil ha
    refine textLine_head ha c ?_
    cases r with
    | nil => exact hc
    | cons b r =>
      rw [joinWith_cons _ _ (by simp)] at hc
      cases a with
      | nil => exact absurd rfl h0
      | cons x a => exact hc

theorem trim_joinLines {ls : List (List Char)} (h0 : ls ≠ []) (h : ∀ l ∈ ls, TextLine l) :
    trim (joinWith ['\n'] ls) = joinWith ['\n'] ls :=
  trim_of_ends (fun c hc => rawChar_not_ws (joinLines_start h c hc)) (fun c hc => rawChar_not_ws (joinLines_end h0 h c hc))

theorem no_abbreviation {cx : Cx} {src : List Char} (hr : '\r' ∉ src) {ls : List (List Char)} (hv : CoreValid (.paragraph ls)) {p : Pos}
    (hp : StandsAt src p (joinWith ['\n'] ls)) : abbreviationDef (withSource cx src) p = none := by
  have he := extract_standsAt (cx := cx) hr hp (joinLines_ne_nil hv.1 hv.2.1) (joinLines_last hv.1 hv.2.1)
  unfold abbreviationDef
  simp only [he]
  rw [if_neg]
  intro h
  rw [Bool.and_eq_true] at h
  have hs := List.isPrefixOf_iff_prefix.1 h.1
  obtain ⟨a, ha, hok⟩ := hv.2.2
  refine runs_no_definition hok ?_
  rwa [ha, ← trim_joinLines hv.1 hv.2.1]

/-- The quotation marks of a block are left as they are. -/
def BlockKept (cx : Cx) : CoreBlock → Prop
  | .heading _ ls => LinesKept cx ls
  | .paragraph ls => LinesKept cx ls
  | _ => True

theorem blockKept_of {cx : Cx} {b : CoreBlock} (h : BlockFits cx b) : BlockKept cx b := by
  cases b with
  | heading _ _ => exact h.2
  | paragraph _ => exact h
  | _ => trivial

/-- The quotation marks in the links of a block are left as they are. -/
def BlockLinks (cx : Cx) : CoreBlock → Prop
  | .heading _ ls => LinkMarksKept cx ls
  | .paragraph ls => LinkMarksKept cx ls
  | _ => True

theorem linksKept_of {cx : Cx} {ls : List (List Char)} (h : LinesKept cx ls) : LinkMarksKept cx ls := fun a ha =>
  ⟨marksKept_mono (h a ha).1 (by
    intro c hc
    obtain ⟨r, hr, h'⟩ := List.mem_flatMap.1 hc
    refine List.mem_flatMap.2 ⟨r, hr, ?_⟩
    cases r <;> first | exact h' | cases h'), (h a ha).2⟩

theorem blockLinks_of {cx : Cx} {b : CoreBlock} (h : BlockKept cx b) : BlockLinks cx b := by
  cases b with
  | heading _ _ => exact linksKept_of h
  | paragraph _ => exact linksKept_of h
  | _ => trivial

theorem curlText_kept {cx : Cx} (ho : DashesOk cx.opts.punct) {t : List Char} (h : SpanOk (.text t)) (hq : MarksKept cx t) : curlText cx t = t := by
  have : (splitOn '\n' t).map (transformPunctuation cx.uni cx.opts.punct) = (splitOn '\n' t).map id :=
    List.map_congr_left fun l hl => transform_plain ho (splitOn_parts h l hl) (marksKept_mono hq (infix_of_mem_splitOn hl).subset)
  rw [curlText, this, List.map_id, join_splitOn]

theorem curlSpan_kept {cx : Cx} (ho : DashesOk cx.opts.punct) {s : Span} (h : SpanOk s) (hq : MarksKept cx (spanWords s)) : curlSpan cx s = s := by
  cases s with
  | text t => rw [curlSpan, curlText_kept ho h hq]
  | code t => rfl

theorem curlSpans_kept {cx : Cx} (ho : DashesOk cx.opts.punct) : ∀ {ss : List Span}, SpansOk ss → MarksKept cx (ss.flatMap spanWords) →
    ss.map (curlSpan cx) = ss
  | [], _, _ => rfl
  | s :: r, h, hq => by
    rw [List.flatMap_cons] at hq
    rw [List.map_cons, curlSpan_kept ho h.1 (marksKept_mono hq (List.subset_append_left _ _)),
      curlSpans_kept ho h.2.2 (marksKept_mono hq (List.subset_append_right _ _))]

theorem curlRuns_kept {cx : Cx} (ho : DashesOk cx.opts.punct) : ∀ {a : List Run} {p : Option Char}, RunsOk p a → MarksKept cx (a.flatMap runWords) →
    a.map (curlRun cx) = a
  | [], _, _, _ => rfl
  | .span s :: r, _, h, hq => by
    rw [List.flatMap_cons] at hq
    rw [List.map_cons, curlRun, curlSpan_kept ho h.1 (marksKept_mono hq (List.subset_append_left _ _)),
      curlRuns_kept ho h.2.2 (marksKept_mono hq (List.subset_append_right _ _))]
  | .emph d strong inner :: r, _, h, hq => by
    rw [List.flatMap_cons] at hq
    rw [List.map_cons, curlRun, curlSpans_kept ho h.2.1 (marksKept_mono hq (List.subset_append_left _ _)),
      curlRuns_kept ho h.2.2.2.2 (marksKept_mono hq (List.subset_append_right _ _))]
  | .link t :: r, _, h, hq => by
    rw [List.flatMap_cons] at hq
    rw [List.map_cons, curlRun, curlRuns_kept ho h.2.2.2 (marksKept_mono hq (List.subset_append_right _ _))]
  | .direct image t url :: r, _, h, hq => by
    rw [List.flatMap_cons] at hq
    rw [List.map_cons, curlRun, curlRuns_kept ho h.2.2.2 (marksKept_mono hq (List.subset_append_right _ _))]

theorem curlLines_kept {cx : Cx} (ho : DashesOk cx.opts.punct) {ls : List (List Char)} (hne : ls ≠ []) (ht : ∀ l ∈ ls, TextLine l) {a : List Run}
    (ha : ContentReads ls a) (hq : LinesKept cx ls) : curlLines cx ls = ls := by
  rw [curlLines_reads ha, curlRuns_kept ho ha.2 (hq a ha).1, ha.1]
  exact splitOn_join hne fun l hl => textLine_nl (ht l hl)

theorem curlBlock_kept {cx : Cx} (ho : DashesOk cx.opts.punct) {b : CoreBlock} (hv : CoreValid b) (hq : BlockKept cx b) : curlBlock cx b = b := by
  cases b with
  | heading level ls =>
    obtain ⟨a, ha⟩ := hv.2.2.2
    rw [curlBlock, curlLines_kept ho hv.2.1 hv.2.2.1 ha hq]
  | paragraph ls =>
    obtain ⟨a, ha⟩ := hv.2.2
    rw [curlBlock, curlLines_kept ho hv.1 hv.2.1 ha hq]
  | _ => rfl

theorem coreLevel_curl (cx : Cx) (b : CoreBlock) : coreLevel (curlBlock cx b) = coreLevel b := by cases b <;> rfl

theorem ser_core {cx : Cx} {src : List Char} {links : LinkMap} (hr : '\r' ∉ src) (ho : CoreOptions cx.opts) (hcb : cx.callback = none)
    {b : CoreBlock} (hv : CoreValid b) (hq : BlockLinks cx b) {n : Node} (hn : BlockNode src links b n) (nb : Bool) (ws : List Warning)
    (rs : List (List Char × Ref) × List (List Char)) (out : List Char) :
    ser (withSource cx src) n nb (coreSt ws rs out) = (coreSt ws rs out).wrote (coreText cx (curlBlock cx b)) (leafRefs links b) := by
  cases b with
  | heading level ls =>
    obtain ⟨p, cs, rfl, hc⟩ := hn
    obtain ⟨a, ha⟩ := hv.2.2.2
    have := (collects_lines (cx := cx) hr ho.dashes ha hq hc).2
    rw [ser, dispatch, serKids_nodes, serHeading, this, if_neg (by rw [show (withSource cx src).opts = cx.opts from rfl, ho.sentenceCase]; simp),
      leafRefs_heading ha, addReferences_plain _ _ rfl, wrote_push]
    rfl
  | paragraph ls =>
    obtain ⟨p, cs, rfl, hc, hp⟩ := hn
    obtain ⟨a, hcont⟩ := hv.2.2
    have := (collects_lines (cx := cx) hr ho.dashes hcont hq hc).1
    have ha := no_abbreviation (cx := cx) hr hv hp
    rw [ser, dispatch, serKids_nodes, serParagraph, ha]
    simp only [this]
    rw [leafRefs_paragraph hcont, addReferences_plain _ _ rfl]
    rw [if_neg (by simp [coreSt, St.wrote]), wrote_push]
    rfl
  | code info ls =>
    obtain ⟨p, rfl⟩ := hn
    rw [ser, dispatch, serCodeBlock, codeContent_nil (cx := withSource cx src) ⟨ho.formatters, hcb⟩]
    rfl
  | rule =>
    obtain ⟨p, rfl⟩ := hn
    rw [ser, dispatch, serThematicBreak]
    simp [coreSt, St.push, St.wrote, addRefs, leafRefs, coreText, curlBlock, withSource]
  | definition label target => exact absurd hn id

theorem partNodes_footnotes {src l : List Char} {ns : List Node} (h : PartNodes src l ns) : footnoteRefLinesList ns = [] := by
  rcases h with ⟨rfl, rfl⟩ | ⟨p, h0, rfl, hp⟩
  · rfl
  · simp [footnoteRefLinesList, footnoteRefLines]

theorem footnoteRefLinesList_append : ∀ (a b : List Node), footnoteRefLinesList (a ++ b) = footnoteRefLinesList a ++ footnoteRefLinesList b
  | [], b => by simp [footnoteRefLinesList]
  | n :: a, b => by simp [footnoteRefLinesList, footnoteRefLinesList_append a b]

theorem textNodes_footnotes {src : List Char} : ∀ (ls : List (List Char)) (ns : List Node), TextNodes src ls ns →
    footnoteRefLinesList ns = []
  | [], ns, h => by rw [TextNodes] at h; subst h; rfl
  | [l], ns, h => by rw [TextNodes] at h; exact partNodes_footnotes h
  | l :: m :: ls, ns, h => by
    rw [TextNodes] at h
    · obtain ⟨a, q, rest, rfl, hp, hn⟩ := h
      have := textNodes_footnotes (m :: ls) rest hn
      rw [footnoteRefLinesList_append, partNodes_footnotes hp]
      simp [footnoteRefLinesList, footnoteRefLines, this]
    · simp

theorem spanNodes_footnotes {src : List Char} {s : Span} {ns : List Node} (h : SpanNodes src s ns) : footnoteRefLinesList ns = [] := by
  cases s with
  | text t => exact textNodes_footnotes _ ns h
  | code t =>
    obtain ⟨p, rfl, _⟩ := h
    simp [footnoteRefLinesList, footnoteRefLines]

theorem spansNodes_footnotes {src : List Char} : ∀ {ss : List Span} {ns : List Node}, SpansNodes src ss ns → footnoteRefLinesList ns = []
  | [], ns, h => by rw [SpansNodes] at h; subst h; rfl
  | s :: r, ns, h => by
    obtain ⟨a, b, rfl, h1, h2⟩ := h
    rw [footnoteRefLinesList_append, spanNodes_footnotes h1, spansNodes_footnotes h2]; rfl

theorem runNodes_footnotes {src : List Char} {links : LinkMap} : ∀ {rs : List Run} {ns : List Node}, RunNodes src links rs ns → footnoteRefLinesList ns = []
  | [], ns, h => by rw [RunNodes] at h; subst h; rfl
  | .span s :: r, ns, h => by
    obtain ⟨a, b, rfl, h1, h2⟩ := h
    rw [footnoteRefLinesList_append, spanNodes_footnotes h1, runNodes_footnotes h2]; rfl
  | .emph d strong inner :: r, ns, h => by
    obtain ⟨p, cs, b, raw, rfl, h1, _, _, _, h5⟩ := h
    have e1 := spansNodes_footnotes h1
    have e2 := runNodes_footnotes h5
    cases strong <;> simp [footnoteRefLinesList, footnoteRefLines, e1, e2]
  | .link t :: r, ns, h => by
    obtain ⟨p, cs, b, raw, url, title, rfl, _, h2, _, _, h5⟩ := h
    have e1 := partNodes_footnotes h2
    have e2 := runNodes_footnotes h5
    simp [footnoteRefLinesList, footnoteRefLines, e1, e2]
  | .direct image t url :: r, ns, h => by
    obtain ⟨p, cs, b, rfl, h2, _, h5⟩ := h
    have e1 := partNodes_footnotes h2
    have e2 := runNodes_footnotes h5
    cases image <;> simp [footnoteRefLinesList, footnoteRefLines, e1, e2]

theorem lineNodes_footnotes {src : List Char} {links : LinkMap} (ls : List (List Char)) (ns : List Node) (h : LineNodes src links ls ns) :
    footnoteRefLinesList ns = [] := by
  obtain ⟨a, _, hn⟩ := h
  exact runNodes_footnotes hn

/-- What the document loop looks at. -/
structure CoreNode (b : CoreBlock) (n : Node) : Prop where
  foot : n.isFootnoteDefinition = false
  html : n.html? = none
  directive : n.directive = none
  front : n.isFrontMatter = false
  level : n.headingLevel = coreLevel b
  refs : footnoteRefLines n = []

theorem coreNode {src : List Char} {links : LinkMap} {b : CoreBlock} {n : Node} (h : BlockNode src links b n) : CoreNode b n := by
  cases b with
  | heading level ls =>
    obtain ⟨p, cs, rfl, hc⟩ := h
    exact ⟨rfl, rfl, rfl, rfl, rfl, by simp [footnoteRefLines, lineNodes_footnotes ls cs hc]⟩
  | paragraph ls =>
    obtain ⟨p, cs, rfl, hc, _⟩ := h
    exact ⟨rfl, rfl, rfl, rfl, rfl, by simp [footnoteRefLines, lineNodes_footnotes ls cs hc]⟩
  | code info ls =>
    obtain ⟨p, rfl⟩ := h
    exact ⟨rfl, rfl, rfl, rfl, rfl, by simp [footnoteRefLines, footnoteRefLinesList]⟩
  | rule =>
    obtain ⟨p, rfl⟩ := h
    exact ⟨rfl, rfl, rfl, rfl, rfl, by simp [footnoteRefLines, footnoteRefLinesList]⟩
  | definition _ _ => exact absurd h id

theorem coreNode_curl (cx : Cx) {b : CoreBlock} {n : Node} (h : CoreNode b n) : CoreNode (curlBlock cx b) n :=
  ⟨h.foot, h.html, h.directive, h.front, by rw [coreLevel_curl, h.level], h.refs⟩

theorem blockNodes_mem {src : List Char} {links : LinkMap} : ∀ {bs : List CoreBlock} {ns : List Node}, BlockNodes src links bs ns →
    ∀ n ∈ ns, ∃ b ∈ bs, BlockNode src links b n
  | [], ns, h, n, hn => by rw [BlockNodes] at h; subst h; cases hn
  | b :: bs, ns, h, n, hn => by
    obtain ⟨m, rest, rfl, hm, hr⟩ := h
    rcases List.mem_cons.1 hn with rfl | hn
    · exact ⟨b, by simp, hm⟩
    · obtain ⟨c, hc, h⟩ := blockNodes_mem hr n hn
      exact ⟨c, by simp [hc], h⟩

theorem flushAll_coreSt (cx : Cx) (before : Option Nat) (ws : List Warning) (out : List Char) :
    flushAll cx before (coreSt ws ([], []) out) = coreSt ws ([], []) out := by
  simp [flushAll, flushFootnotesBefore, flushReferences, flushFootnoteRefsBefore, coreSt]

theorem blockGap_core {b c : CoreBlock} {m n : Node} (hm : CoreNode b m) (hn : CoreNode c n) :
    blockGap (some m) n = coreGap (some b) c := by
  simp [blockGap, coreGap, hm.front, hm.level, hn.level]

/-- The previous block and its node. -/
def CorePrev (src : List Char) : Option CoreBlock → Option Node → Prop
  | none, none => True
  | some b, some n => CoreNode b n
  | _, _ => False

theorem loop_core {cx : Cx} {src : List Char} (hr : '\r' ∉ src) (ho : CoreOptions cx.opts) (hcb : cx.callback = none) (ws : List Warning) :
    ∀ (bs : List CoreBlock) (ns : List Node) (prev : Option CoreBlock) (pn : Option Node) (main : Nat) (out : List Char),
      (∀ b ∈ bs, CoreValid b ∧ BlockLinks cx b) → BlockNodes src noLinks bs ns → CorePrev src prev pn → bs.length ≤ main →
      serTopLoop (withSource cx src) pn main (serKids (withSource cx src) ns) (coreSt ws ([], []) out) =
        (coreSt ws ([], []) (out ++ coreDoc cx prev (bs.map (curlBlock cx))), false)
  | [], ns, prev, pn, main, out, _, hn, _, _ => by
    rw [BlockNodes] at hn; subst hn
    simp [serKids, serTopLoop, coreDoc]
  | b :: bs, ns, prev, pn, main, out, hv, hn, hp, hm => by
    obtain ⟨n, rest, rfl, hb, hrest⟩ := hn
    have hc : CoreNode (curlBlock cx b) n := coreNode_curl cx (coreNode hb)
    have hm0 : (main == 0) = false := by simp at hm ⊢; omega
    have hgap : blockGap pn n = coreGap prev (curlBlock cx b) := by
      cases prev with
      | none =>
        cases pn with
        | none => rfl
        | some m => exact absurd hp (by simp [CorePrev])
      | some a =>
        cases pn with
        | none => exact absurd hp (by simp [CorePrev])
        | some m => exact blockGap_core hp hc
    have hchild : serTopChild (withSource cx src) pn false ⟨n, ser (withSource cx src) n (nextIsBracket rest)⟩ (coreSt ws ([], []) out) =
        (coreSt ws ([], []) (out ++ coreGap prev (curlBlock cx b) ++ coreText cx (curlBlock cx b)), false) := by
      unfold serTopChild
      simp only [Bool.false_and, Bool.false_eq_true, if_false, hc.foot, hc.directive, flushAll_coreSt, ite_self]
      rw [hgap]
      have : (coreSt ws ([], []) out).push (coreGap prev (curlBlock cx b)) = coreSt ws ([], []) (out ++ coreGap prev (curlBlock cx b)) := rfl
      rw [this, serTopBlock, if_pos (show (coreSt ws ([], []) (out ++ coreGap prev (curlBlock cx b))).skipMode = SkipMode.none from rfl)]
      simp only [ser_core hr ho hcb (hv b (by simp)).1 (hv b (by simp)).2 hb, leafRefs_none]
      rfl
    rw [serKids, serTopLoop]
    simp only [hm0, hchild, Bool.false_eq_true, if_false]
    rw [loop_core hr ho hcb ws bs rest (some (curlBlock cx b)) (some n) (main - 1) _ (fun x hx => hv x (by simp [hx])) hrest hc (by simp at hm; omega)]
    simp [coreDoc]

theorem blockNodes_length {src : List Char} : ∀ {bs : List CoreBlock} {ns : List Node}, BlockNodes src noLinks bs ns →
    ns.length = bs.length
  | [], ns, h => by rw [BlockNodes] at h; subst h; rfl
  | b :: bs, ns, h => by
    obtain ⟨m, rest, rfl, hm, hr⟩ := h
    simp [blockNodes_length hr]

theorem format_core {cx : Cx} {src : List Char} (hr : '\r' ∉ src) (ho : CoreOptions cx.opts) (hcb : cx.callback = none) {bs : List CoreBlock}
    (hv : ∀ b ∈ bs, CoreValid b ∧ BlockLinks cx b) {root : Node} (ht : IsTree src bs root) :
    (formatDoc (withSource cx src) root).output = coreDoc cx none (bs.map (curlBlock cx)) := by
  obtain ⟨p, ns, rfl, hn⟩ := ht
  have hall : ∀ n ∈ ns, ∃ b, CoreNode b n := by
    intro n hm
    obtain ⟨b, _, h⟩ := blockNodes_mem hn n hm
    exact ⟨b, coreNode h⟩
  have hrefs : footnoteRefLinesList ns = [] := by
    have : ∀ ms : List Node, (∀ n ∈ ms, ∃ b, CoreNode b n) → footnoteRefLinesList ms = [] := by
      intro ms
      induction ms with
      | nil => intro _; rfl
      | cons m ms ih =>
        intro h
        obtain ⟨b, hb⟩ := h m (by simp)
        rw [footnoteRefLinesList, hb.refs, ih (fun n hn => h n (by simp [hn]))]; rfl
    exact this ns hall
  have hfilter : (serKids (withSource cx src) ns).filter (fun k => k.node.isFootnoteDefinition) = [] := by
    rw [List.filter_eq_nil_iff]
    intro k hk
    have : k.node ∈ ns := by
      have := List.mem_map_of_mem (f := (·.node)) hk
      rwa [serKids_nodes] at this
    obtain ⟨b, hb⟩ := hall _ this
    rw [hb.foot]; simp
  have htrail : trailingCount ns.reverse = 0 := by
    cases h : ns.reverse with
    | nil => rfl
    | cons m ms =>
      obtain ⟨b, hb⟩ := hall m (by rw [← List.mem_reverse, h]; simp)
      rw [trailingCount, if_neg (by simp [Node.isPlainHtml, hb.html]), if_neg (by simp [hb.foot])]
  unfold formatDoc
  rw [ser, dispatch, serDocument]
  simp only [serKids_nodes, hrefs, recordLines, List.foldl_nil, serFootnoteDefinitions, hfilter, runKids, trailingStart, htrail, Nat.sub_zero]
  have := loop_core hr ho hcb (undefinedWarnings (withSource cx src) ns) bs ns none none ns.length [] hv hn trivial
    (by rw [blockNodes_length hn]; omega)
  rw [show ({ ({} : St) with warnings := ({} : St).warnings ++ undefinedWarnings (withSource cx src) ns }) =
    coreSt (undefinedWarnings (withSource cx src) ns) ([], []) [] from by simp [coreSt]]
  rw [this]
  simp only [Bool.false_eq_true, if_false, flushAll_coreSt, List.drop_length]
  simp [outputTrailing, coreSt]

/-- The same where no quotation marks are replaced. -/
theorem format_core_kept {cx : Cx} {src : List Char} (hr : '\r' ∉ src) (ho : CoreOptions cx.opts) (hcb : cx.callback = none) {bs : List CoreBlock}
    (hv : ∀ b ∈ bs, CoreValid b ∧ BlockKept cx b) {root : Node} (ht : IsTree src bs root) :
    (formatDoc (withSource cx src) root).output = coreDoc cx none bs := by
  rw [format_core hr ho hcb (fun b hb => ⟨(hv b hb).1, blockLinks_of (hv b hb).2⟩) ht]
  congr 1
  conv => rhs; rw [← List.map_id bs]
  exact List.map_congr_left fun b hb => curlBlock_kept ho.dashes (hv b hb).1 (hv b hb).2

end Hongdown.Model
