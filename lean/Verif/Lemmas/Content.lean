import Verif.Spec.Content
import Verif.Spec.Words
import Verif.Lemmas.Wrap
import Verif.Lemmas.Text

/-!
# Lemmas for inline content
-/

namespace Hongdown.Model
open Spec

/-! ### Joined lines -/

theorem joinWith_prefix (sep : List Char) : ∀ (b c : List (List Char)), joinWith sep b <+: joinWith sep (b ++ c)
  | [], c => List.nil_prefix
  | [x], [] => List.prefix_rfl
  | [x], y :: c => by
    rw [List.singleton_append, joinWith_cons x (sep := sep) (l := y :: c) (by simp), List.append_assoc]
    exact List.prefix_append _ _
  | x :: y :: b, c => by
    rw [List.cons_append, joinWith_cons x (sep := sep) (l := y :: b ++ c) (by simp),
      joinWith_cons x (sep := sep) (l := y :: b) (by simp)]
    exact (List.prefix_append_right_inj _).2 (joinWith_prefix sep (y :: b) c)

theorem joinWith_infix (sep : List Char) (b a c : List (List Char)) :
    joinWith sep b <:+: joinWith sep (a ++ b ++ c) := by
  by_cases hb : b = []
  · subst hb; exact List.nil_infix
  induction a with
  | nil => exact (joinWith_prefix sep b c).isInfix
  | cons x a ih =>
    rw [List.cons_append, List.cons_append, joinWith_cons x (sep := sep) (l := a ++ b ++ c) (by simp [hb])]
    exact ih.trans (List.suffix_append _ _).isInfix

theorem infix_of_mem_splitOn {c : Char} {s l : List Char} (h : l ∈ splitOn c s) : l <:+: s := by
  obtain ⟨a, b, e⟩ := List.append_of_mem h
  have := joinWith_infix [c] [l] a b
  rw [← join_splitOn c s, e]
  simpa [joinWith] using this

/-! ### Characters -/

theorem plainChar_ne {c : Char} (h : plainChar c = true) (d : Char) (hd : plainChar d = false) : c ≠ d := by
  rintro rfl; rw [h] at hd; cases hd

theorem plainChar_not_ws {c : Char} (h : plainChar c = true) : isWs c = false := by
  have h1 : c.val.toNat = c.toNat := rfl
  unfold plainChar at h
  simp only [Bool.or_eq_true, Bool.and_eq_true, Bool.not_eq_true'] at h
  rcases h with (h | h) | h
  · simp only [Char.isAlphanum, Char.isAlpha, Char.isUpper, Char.isLower, Char.isDigit, Bool.or_eq_true,
      Bool.and_eq_true, decide_eq_true_eq, UInt32.le_iff_toNat_le, h1] at h
    simp only [isWs, Bool.or_eq_false_iff, Bool.and_eq_false_iff, decide_eq_false_iff_not, beq_eq_false_iff_ne, ne_eq]
    simp at h
    omega
  · exact h.1.2
  · rw [List.contains_iff_mem] at h
    exact (show ∀ c ∈ [',', ';', ':', '.', '?', '!', '(', ')', '/', '%', '@', '$', '+', '-', '"', '\''], isWs c = false by decide) c h

theorem rawChar_ne {c : Char} (h : rawChar c = true) (d : Char) (hd : rawChar d = false) : c ≠ d := by
  rintro rfl; rw [h] at hd; cases hd

theorem rawChar_not_ws {c : Char} (h : rawChar c = true) : isWs c = false := by
  unfold rawChar at h
  rw [Bool.or_eq_true, List.contains_iff_mem] at h
  rcases h with h | h
  · exact plainChar_not_ws h
  · exact (show ∀ c ∈ ['*', '_', '`', '=', '<', '>', '"', '\'', '&', '\\', '[', ']', '{', '}', '|', '^', '#'], isWs c = false by decide) c h

theorem rawChar_of_plain {c : Char} (h : plainChar c = true) : rawChar c = true := by simp [rawChar, h]

theorem gapChar_iff {c : Char} : gapChar c = true ↔ c = ' ' ∨ c = '\n' := by simp [gapChar]

/-- A character of text is not one of these. -/
theorem textChar_ne {c : Char} (h : plainChar c = true ∨ gapChar c = true) (d : Char) (h1 : plainChar d = false) (h2 : gapChar d = false) :
    c ≠ d := by
  rintro rfl
  rcases h with h | h
  · rw [h1] at h; cases h
  · rw [h2] at h; cases h

/-! ### Where code spans end -/

theorem ends_append {x y : List Char} (hx : EndsOutside x) : EndsOutside (x ++ y) ↔ EndsOutside y := by
  unfold EndsOutside at *
  rw [endSt_append, hx]

theorem ends_nil : EndsOutside [] := rfl

theorem ends_of_chars : ∀ (t : List Char), (∀ c ∈ t, c ≠ '`' ∧ c ≠ '[' ∧ c ≠ ']') → EndsOutside t
  | [], _ => rfl
  | c :: t, h => by
    have hc := h c (by simp)
    have ih := ends_of_chars t (fun d hd => h d (by simp [hd]))
    unfold EndsOutside at *
    rw [endSt, if_neg (fun e => hc.1 e.1), if_neg (by simp), if_neg hc.2.1, if_neg (fun e => hc.2.2 e.1), ih]

theorem endSt_ticks : ∀ (t : List Char), '`' ∉ t → endSt true 0 t = (true, 0)
  | [], _ => rfl
  | c :: t, h => by
    simp only [List.mem_cons, not_or] at h
    rw [endSt, if_neg (fun e => h.1 e.1.symm), if_pos rfl, endSt_ticks t h.2]

theorem ends_code {t : List Char} (h : '`' ∉ t) : EndsOutside (['`'] ++ t ++ ['`']) := by
  unfold EndsOutside
  rw [endSt_append, endSt_append]
  have : endSt false 0 ['`'] = (true, 0) := by decide
  rw [this, endSt_ticks t h]
  decide

/-! ### Links -/

theorem link_char {t : List Char} (h : LinkOk t) {c : Char} (hc : c ∈ t) : plainChar c = true ∨ c = ' ' := by
  rcases h.2.1 c hc with h | h
  · exact .inl h.1
  · exact .inr h

theorem link_not_mem {t : List Char} (h : LinkOk t) (d : Char) (h1 : plainChar d = false) (h2 : d ≠ ' ') : d ∉ t := by
  intro hc
  rcases link_char h hc with e | e
  · rw [h1] at e; cases e
  · exact h2 e

theorem link_ne_nil {t : List Char} (h : LinkOk t) : t ≠ [] := by
  rintro rfl
  exact absurd h.1 (by decide)

theorem endSt_bracket : ∀ (t : List Char), '[' ∉ t → ']' ∉ t → endSt false 1 t = (false, 1)
  | [], _, _ => rfl
  | c :: t, h1, h2 => by
    simp only [List.mem_cons, not_or] at h1 h2
    rw [endSt, if_neg (by simp), if_neg (by simp), if_neg (Ne.symm h1.1), if_neg (fun e => h2.1 e.1.symm), endSt_bracket t h1.2 h2.2]

theorem link_ends {t : List Char} (h : LinkOk t) : EndsOutside (['['] ++ t ++ [']']) := by
  unfold EndsOutside
  rw [endSt_append, endSt_append]
  have : endSt false 0 ['['] = (false, 1) := by decide
  rw [this, endSt_bracket t (link_not_mem h _ (by decide) (by decide)) (link_not_mem h _ (by decide) (by decide))]
  decide

theorem link_nl {t : List Char} (h : LinkOk t) : '\n' ∉ ['['] ++ t ++ [']'] := by
  simp only [List.mem_append, List.mem_singleton, not_or]
  exact ⟨⟨by decide, link_not_mem h _ (by decide) (by decide)⟩, by decide⟩

theorem textSpan_chars {t : List Char} (h : SpanOk (.text t)) : ∀ c ∈ t, plainChar c = true ∨ gapChar c = true := h.2.1

theorem codeSpan_char {t : List Char} (h : SpanOk (.code t)) {c : Char} (hc : c ∈ t) : rawChar c = true ∨ c = ' ' := by
  rcases h.2.1 c hc with h | h
  · exact .inl h.1
  · exact .inr h

theorem codeSpan_tick {t : List Char} (h : SpanOk (.code t)) : '`' ∉ t := by
  intro hc
  rcases h.2.1 _ hc with h | h
  · exact h.2 rfl
  · exact absurd h (by decide)

theorem codeSpan_nl {t : List Char} (h : SpanOk (.code t)) : '\n' ∉ t := by
  intro hc
  rcases h.2.1 _ hc with h | h
  · exact absurd h.1 (by decide)
  · exact absurd h (by decide)

theorem text_ends {t : List Char} (h : ∀ c ∈ t, plainChar c = true ∨ gapChar c = true) : EndsOutside t :=
  ends_of_chars t fun c hc => ⟨textChar_ne (h c hc) _ (by decide) (by decide), textChar_ne (h c hc) _ (by decide) (by decide),
    textChar_ne (h c hc) _ (by decide) (by decide)⟩

theorem span_ends {s : Span} (h : SpanOk s) : EndsOutside (spanText s) := by
  cases s with
  | text t => exact text_ends h.2.1
  | code t => exact ends_code (codeSpan_tick h)

theorem spansText_cons (s : Span) (r : List Span) : spansText (s :: r) = spanText s ++ spansText r := by simp [spansText]

theorem runsText_cons (s : Run) (r : List Run) : runsText (s :: r) = runText s ++ runsText r := by simp [runsText]

theorem spans_ends : ∀ {ss : List Span}, SpansOk ss → EndsOutside (spansText ss)
  | [], _ => rfl
  | s :: r, h => by rw [spansText_cons, ends_append (span_ends h.1)]; exact spans_ends h.2.2

theorem mark_ends {d : Char} (hd : d = '*' ∨ d = '_') (strong : Bool) : EndsOutside (emphMark d strong) := by
  rcases hd with rfl | rfl <;> cases strong <;> decide

/-! ### Links with their address -/

theorem address_char {image : Bool} {t url : List Char} (h : AddressOk image t url) (d : Char) (h1 : plainChar d = false ∨ d = '(' ∨ d = ')')
    (h2 : d ∉ ['_', '=', '#']) : d ∉ url := by
  intro hc
  rcases h.2.1 _ hc with ⟨e, e1, e2⟩ | e
  · rcases h1 with h1 | h1 | h1
    · rw [h1] at e; cases e
    · exact e1 h1
    · exact e2 h1
  · exact h2 e

theorem address_nl {image : Bool} {t url : List Char} (h : AddressOk image t url) : '\n' ∉ ['('] ++ url ++ [')'] := by
  simp only [List.mem_append, List.mem_singleton, not_or]
  exact ⟨⟨by decide, address_char h _ (.inl (by decide)) (by decide)⟩, by decide⟩

theorem address_ends {image : Bool} {t url : List Char} (h : AddressOk image t url) : EndsOutside (['('] ++ url ++ [')']) := by
  refine ends_of_chars _ fun c hc => ?_
  simp only [List.mem_append, List.mem_singleton] at hc
  rcases hc with (rfl | hc) | rfl
  · decide
  · refine ⟨?_, ?_, ?_⟩ <;> rintro rfl <;> exact address_char h _ (.inl (by decide)) (by decide) hc
  · decide

theorem bang_ends (image : Bool) : EndsOutside (bangOf image) := by cases image <;> decide

theorem bang_nl (image : Bool) : '\n' ∉ bangOf image := by cases image <;> decide

theorem direct_ends {image : Bool} {t url : List Char} (h : LinkOk t ∧ AddressOk image t url) : EndsOutside (runText (.direct image t url)) := by
  rw [runText, List.append_assoc, ends_append (bang_ends image), ends_append (link_ends h.1)]
  exact address_ends h.2

theorem direct_nl {image : Bool} {t url : List Char} (h : LinkOk t ∧ AddressOk image t url) : '\n' ∉ runText (.direct image t url) := by
  rw [runText, List.mem_append, List.mem_append, not_or, not_or]
  exact ⟨⟨bang_nl image, link_nl h.1⟩, address_nl h.2⟩

/-! ### Line breaks -/

/-- Lines end outside of code spans. -/
def CutOk (u : List Char) : Prop := ∀ x y, u = x ++ '\n' :: y → EndsOutside x

theorem cutOk_left {x y : List Char} (h : CutOk (x ++ y)) : CutOk x := by
  intro a b e
  exact h a (b ++ y) (by rw [e]; simp)

theorem cutOk_right {x y : List Char} (h : CutOk (x ++ y)) (hx : EndsOutside x) : CutOk y := by
  intro a b e
  have := h (x ++ a) b (by rw [e]; simp)
  rwa [ends_append hx] at this

theorem cutOk_append {x y : List Char} (h1 : CutOk x) (hx : EndsOutside x) (h2 : CutOk y) : CutOk (x ++ y) := by
  intro a b e
  rcases List.append_eq_append_iff.1 e with ⟨c, rfl, e2⟩ | ⟨c, rfl, e2⟩
  · rw [ends_append hx]; exact h2 c b e2
  · cases c with
    | nil => simpa using hx
    | cons z c =>
      simp only [List.cons_append, List.cons.injEq] at e2
      exact h1 a c (by rw [e2.1])

theorem cutOk_of_not_mem {x : List Char} (h : '\n' ∉ x) : CutOk x := by
  rintro a b rfl
  exact absurd (by simp) h

theorem cutOk_text {t : List Char} (h : ∀ c ∈ t, plainChar c = true ∨ gapChar c = true) : CutOk t := by
  rintro a b rfl
  exact text_ends fun c hc => h c (by simp [hc])

theorem span_cut {s : Span} (h : SpanOk s) : CutOk (spanText s) := by
  cases s with
  | text t => exact cutOk_text h.2.1
  | code t =>
    refine cutOk_of_not_mem ?_
    simp only [spanText, List.mem_append, List.mem_singleton, not_or]
    exact ⟨⟨by decide, codeSpan_nl h⟩, by decide⟩

theorem spans_cut : ∀ {ss : List Span}, SpansOk ss → CutOk (spansText ss)
  | [], _ => cutOk_of_not_mem (by simp [spansText])
  | s :: r, h => by rw [spansText_cons]; exact cutOk_append (span_cut h.1) (span_ends h.1) (spans_cut h.2.2)

theorem mark_nl {d : Char} (hd : d = '*' ∨ d = '_') (strong : Bool) : '\n' ∉ emphMark d strong := by
  rcases hd with rfl | rfl <;> cases strong <;> decide

theorem runs_cut : ∀ {a : List Run} {p : Option Char}, RunsOk p a → EndsOutside (runsText a) ∧ CutOk (runsText a)
  | [], _, _ => ⟨rfl, cutOk_of_not_mem (by simp [runsText])⟩
  | .span s :: r, _, h => by
    have ih := runs_cut h.2.2
    rw [runsText_cons, runText, ends_append (span_ends h.1)]
    exact ⟨ih.1, cutOk_append (span_cut h.1) (span_ends h.1) ih.2⟩
  | .emph d strong inner :: r, _, h => by
    have ih := runs_cut h.2.2.2.2
    have hm := mark_ends h.1 strong
    have hn := cutOk_of_not_mem (mark_nl h.1 strong)
    have hi := spans_ends h.2.1
    have h1 : EndsOutside (emphMark d strong ++ spansText inner ++ emphMark d strong) := by
      rw [List.append_assoc, ends_append hm, ends_append hi]; exact hm
    rw [runsText_cons, runText, ends_append h1]
    refine ⟨ih.1, cutOk_append ?_ h1 ih.2⟩
    rw [List.append_assoc]
    exact cutOk_append hn hm (cutOk_append (spans_cut h.2.1) hi hn)
  | .link t :: r, _, h => by
    have ih := runs_cut h.2.2.2
    rw [runsText_cons, runText, ends_append (link_ends h.1)]
    exact ⟨ih.1, cutOk_append (cutOk_of_not_mem (link_nl h.1)) (link_ends h.1) ih.2⟩
  | .direct image t url :: r, _, h => by
    have ih := runs_cut h.2.2.2
    rw [runsText_cons, ends_append (direct_ends h.1)]
    exact ⟨ih.1, cutOk_append (cutOk_of_not_mem (direct_nl h.1)) (direct_ends h.1) ih.2⟩

/-! ### Up to line breaks -/

theorem flatChar_gap (c : Char) : gapChar (flatChar c) = gapChar c := by
  unfold flatChar
  split
  · next h => subst h; rfl
  · rfl

theorem flatChar_of_ne {c : Char} (h : gapChar c = false) : flatChar c = c := by
  unfold flatChar
  rw [if_neg]
  rintro rfl
  exact absurd h (by decide)

theorem flatChar_eq_iff {c d : Char} (h : gapChar d = false) : flatChar c = d ↔ c = d := by
  unfold flatChar
  split
  · next hc =>
    subst hc
    constructor
    · rintro rfl; exact absurd h (by decide)
    · rintro rfl; exact absurd h (by decide)
  · rfl

theorem flatChar_idem (c : Char) : flatChar (flatChar c) = flatChar c := by
  unfold flatChar
  split
  · decide
  · rfl

theorem flatChar_plain (c : Char) : (plainChar (flatChar c) = true ∨ gapChar (flatChar c) = true) ↔ (plainChar c = true ∨ gapChar c = true) := by
  unfold flatChar
  split
  · next h => subst h; decide
  · rfl

theorem map_flat {x : List Char} (h : '\n' ∉ x) : x.map flatChar = x := by
  induction x with
  | nil => rfl
  | cons c x ih =>
    simp only [List.mem_cons, not_or] at h
    rw [List.map_cons, ih h.2]
    unfold flatChar
    rw [if_neg (Ne.symm h.1)]

theorem infix_flat {x : List Char} (hx : ∀ c ∈ x, gapChar c = false) (t : List Char) : x <:+: t.map flatChar ↔ x <:+: t := by
  have key : ∀ y : List Char, y.map flatChar = x → y = x := by
    clear t
    induction x with
    | nil => intro y h; simpa using h
    | cons c x ih =>
      intro y h
      cases y with
      | nil => simp at h
      | cons d y =>
        simp only [List.map_cons, List.cons.injEq] at h
        rw [(flatChar_eq_iff (hx c (by simp))).1 h.1, ih (fun e he => hx e (by simp [he])) y h.2]
  have hmap : x.map flatChar = x := map_flat fun hc => absurd (hx _ hc) (by decide)
  constructor
  · rintro ⟨a, b, e⟩
    obtain ⟨u, v, rfl, h1, h2⟩ := List.map_eq_append_iff.1 e.symm
    obtain ⟨u1, u2, rfl, h3, h4⟩ := List.map_eq_append_iff.1 h1
    rw [key _ h4]
    exact ⟨u1, v, rfl⟩
  · rintro ⟨a, b, rfl⟩
    exact ⟨a.map flatChar, b.map flatChar, by simp [hmap]⟩

theorem flatChar_alpha (c : Char) : (flatChar c).isAlpha = c.isAlpha := by
  unfold flatChar
  split
  · next h => subst h; rfl
  · rfl

theorem inWords_flat : ∀ (t : List Char) (p q : Option Char), p.any Char.isAlpha = q.any Char.isAlpha →
    inWords p (t.map flatChar) = inWords q t
  | [], _, _, _ => rfl
  | c :: t, p, q, h => by
    have h1 : (t.map flatChar).head?.any Char.isAlpha = t.head?.any Char.isAlpha := by
      cases t with
      | nil => rfl
      | cons d t => simp [flatChar_alpha]
    have h2 : decide (flatChar c ≠ '\'') = decide (c ≠ '\'') := by
      simp only [ne_eq, flatChar_eq_iff (show gapChar '\'' = false by decide)]
    rw [List.map_cons, inWords, inWords, h, h1, h2, inWords_flat t (some (flatChar c)) (some c) (by simp [flatChar_alpha])]

theorem spanOk_flat (s : Span) : SpanOk (flatSpan s) ↔ SpanOk s := by
  cases s with
  | text t =>
    simp only [flatSpan, SpanOk, ne_eq, List.map_eq_nil_iff, List.mem_map, forall_exists_index, and_imp, forall_apply_eq_imp_iff₂,
      flatChar_plain, infix_flat (x := ['-', '-']) (by decide), infix_flat (x := ['.', '.', '.']) (by decide), inWords_flat t none none rfl]
  | code t => rfl

theorem spanText_flat {s : Span} (h : SpanOk s) : spanText (flatSpan s) = (spanText s).map flatChar := by
  cases s with
  | text t => rfl
  | code t =>
    have : t.map flatChar = t := map_flat (codeSpan_nl h)
    simp [spanText, flatSpan, this]
    decide

theorem differ_flat (s u : Span) : differ (flatSpan s) (flatSpan u) = differ s u := by cases s <;> cases u <;> rfl

theorem spansOk_flat : ∀ ss : List Span, SpansOk (ss.map flatSpan) ↔ SpansOk ss
  | [] => Iff.rfl
  | s :: r => by
    rw [List.map_cons, SpansOk, SpansOk, spanOk_flat, spansOk_flat r, List.head?_map]
    cases r.head? with
    | none => simp
    | some u => simp [differ_flat]

theorem spansText_flat : ∀ {ss : List Span}, SpansOk ss → spansText (ss.map flatSpan) = (spansText ss).map flatChar
  | [], _ => rfl
  | s :: r, h => by
    rw [List.map_cons, spansText_cons, spansText_cons, List.map_append, spanText_flat h.1, spansText_flat h.2.2]

theorem mark_flat {d : Char} (hd : d = '*' ∨ d = '_') (strong : Bool) : (emphMark d strong).map flatChar = emphMark d strong := by
  rcases hd with rfl | rfl <;> cases strong <;> decide

theorem runsText_flat : ∀ {a : List Run} {p : Option Char}, RunsOk p a → runsText (a.map flatRun) = (runsText a).map flatChar
  | [], _, _ => rfl
  | .span s :: r, _, h => by
    rw [List.map_cons, runsText_cons, runsText_cons, List.map_append, runsText_flat h.2.2, flatRun, runText, runText, spanText_flat h.1]
  | .emph d strong inner :: r, _, h => by
    rw [List.map_cons, runsText_cons, runsText_cons, List.map_append, runsText_flat h.2.2.2.2, flatRun, runText, runText]
    simp only [List.map_append, spansText_flat h.2.1, mark_flat h.1]
  | .link t :: r, _, h => by
    rw [List.map_cons, runsText_cons, runsText_cons, List.map_append, runsText_flat h.2.2.2, flatRun, runText, map_flat (link_nl h.1)]
  | .direct image t url :: r, _, h => by
    rw [List.map_cons, runsText_cons, runsText_cons, List.map_append, runsText_flat h.2.2.2, flatRun, map_flat (direct_nl h.1)]

theorem opens_flat (p f : Option Char) : opens (p.map flatChar) (f.map flatChar) = opens p f := by
  have h1 : (p.map flatChar).all gapChar = p.all gapChar := by cases p <;> simp [flatChar_gap]
  have h2 : (f.map flatChar).any (fun c => !gapChar c) = f.any (fun c => !gapChar c) := by cases f <;> simp [flatChar_gap]
  have h3 : (p.map flatChar = some '(') = (p = some '(') := by
    cases p with
    | none => simp
    | some c => simp [flatChar_eq_iff (show gapChar '(' = false by decide)]
  have h4 : (f.map flatChar).any Char.isAlphanum = f.any Char.isAlphanum := by
    cases f with
    | none => rfl
    | some c =>
      simp only [Option.map_some, Option.any_some]
      unfold flatChar
      split
      · next h => subst h; rfl
      · rfl
  simp only [opens, h1, h2, h3, h4]

theorem closes_flat (l n : Option Char) : closes (l.map flatChar) (n.map flatChar) = closes l n := by
  have h2 : (l.map flatChar).any (fun c => !gapChar c) = l.any (fun c => !gapChar c) := by cases l <;> simp [flatChar_gap]
  have h1 : (n.map flatChar).all (fun c => gapChar c || [',', ';', ':', '.', '?', '!', ')'].contains c) =
      n.all (fun c => gapChar c || [',', ';', ':', '.', '?', '!', ')'].contains c) := by
    cases n with
    | none => rfl
    | some c =>
      simp only [Option.map_some, Option.all_some]
      unfold flatChar
      split
      · next h => subst h; rfl
      · rfl
  simp only [closes, h1, h2]

theorem beforeLink_flat (p : Option Char) : (p.map flatChar).all beforeLink = p.all beforeLink := by
  cases p with
  | none => rfl
  | some c =>
    simp only [Option.map_some, Option.all_some]
    unfold flatChar
    split
    · next h => subst h; rfl
    · rfl

theorem afterLink_flat (n : Option Char) : (n.map flatChar).all afterLink = n.all afterLink := by
  cases n with
  | none => rfl
  | some c =>
    simp only [Option.map_some, Option.all_some]
    unfold flatChar
    split
    · next h => subst h; rfl
    · rfl

theorem firstSpan_flat (r : List Run) : firstSpan (r.map flatRun) = (firstSpan r).map flatSpan := by
  cases r with
  | nil => rfl
  | cons x r => cases x <;> rfl

/-- Whether content can be read back does not depend on where the lines are broken. -/
theorem runsOk_flat : ∀ (a : List Run) (p : Option Char), RunsOk (p.map flatChar) (a.map flatRun) ↔ RunsOk p a
  | [], _ => Iff.rfl
  | .span s :: r, p => by
    rw [List.map_cons, flatRun, RunsOk, RunsOk, spanOk_flat, firstSpan_flat]
    refine and_congr_right fun hs => ?_
    rw [spanText_flat hs, List.getLast?_map, runsOk_flat r]
    refine and_congr_left fun _ => ?_
    cases firstSpan r with
    | none => simp
    | some u => simp [differ_flat]
  | .emph d strong inner :: r, p => by
    rw [List.map_cons, flatRun, RunsOk, RunsOk, spansOk_flat]
    refine and_congr_right fun hd => and_congr_right fun hi => ?_
    have hdf : some d = (some d).map flatChar := by rcases hd with rfl | rfl <;> rfl
    rw [spansText_flat hi, List.head?_map, List.getLast?_map, opens_flat]
    refine and_congr_right fun _ => ?_
    constructor
    · rintro ⟨h1, h2⟩
      rw [hdf, runsOk_flat r] at h2
      rw [runsText_flat h2, List.head?_map, closes_flat] at h1
      exact ⟨h1, h2⟩
    · rintro ⟨h1, h2⟩
      rw [runsText_flat h2, List.head?_map, closes_flat, hdf, runsOk_flat r]
      exact ⟨h1, h2⟩
  | .link t :: r, p => by
    rw [List.map_cons, flatRun, RunsOk, RunsOk, beforeLink_flat]
    refine and_congr_right fun ht => and_congr_right fun hp => ?_
    have hdf : some ']' = (some ']').map flatChar := rfl
    constructor
    · rintro ⟨h1, h2⟩
      rw [hdf, runsOk_flat r] at h2
      rw [runsText_flat h2, List.head?_map, afterLink_flat] at h1
      exact ⟨h1, h2⟩
    · rintro ⟨h1, h2⟩
      rw [runsText_flat h2, List.head?_map, afterLink_flat, hdf, runsOk_flat r]
      exact ⟨h1, h2⟩
  | .direct image t url :: r, p => by
    rw [List.map_cons, flatRun, RunsOk, RunsOk, beforeLink_flat]
    refine and_congr_right fun ht => and_congr_right fun hp => ?_
    have hdf : some ')' = (some ')').map flatChar := rfl
    constructor
    · rintro ⟨h1, h2⟩
      rw [hdf, runsOk_flat r] at h2
      rw [runsText_flat h2, List.head?_map, afterLink_flat] at h1
      exact ⟨h1, h2⟩
    · rintro ⟨h1, h2⟩
      rw [runsText_flat h2, List.head?_map, afterLink_flat, hdf, runsOk_flat r]
      exact ⟨h1, h2⟩

theorem runsOk_of_flat {a b : List Run} (h : a.map flatRun = b.map flatRun) {p : Option Char} (ha : RunsOk p a) : RunsOk p b := by
  have := (runsOk_flat a p).2 ha
  rw [h] at this
  exact (runsOk_flat b p).1 this

/-! ### Breaking lines elsewhere -/

theorem cut_span {s : Span} (h : SpanOk s) {u : List Char} (hu : u.map flatChar = (spanText s).map flatChar) (hc : CutOk u) :
    ∃ s', spanText s' = u ∧ flatSpan s' = flatSpan s := by
  cases s with
  | text t => exact ⟨.text u, rfl, by simp only [flatSpan]; rw [hu]; rfl⟩
  | code t =>
    refine ⟨.code t, ?_, rfl⟩
    have hn : '\n' ∉ spanText (.code t) := by
      simp only [spanText, List.mem_append, List.mem_singleton, not_or]
      exact ⟨⟨by decide, codeSpan_nl h⟩, by decide⟩
    rw [map_flat hn] at hu
    have hun : '\n' ∉ u := by
      intro hm
      obtain ⟨x, y, e, hx⟩ := List.eq_append_cons_of_mem hm
      have he := hc x y e
      rw [e, List.map_append, map_flat hx] at hu
      simp only [spanText, List.map_cons] at hu
      cases x with
      | nil => exact absurd hu (by simp [flatChar])
      | cons c x =>
        simp only [List.cons_append, List.nil_append, List.cons.injEq] at hu
        obtain ⟨rfl, hu⟩ := hu
        have hxt : ∀ c ∈ x, c ∈ t := by
          rcases List.append_eq_append_iff.1 hu with ⟨v, rfl, _⟩ | ⟨v, rfl, h2⟩
          · intro c hc; simp [hc]
          · cases v with
            | nil => intro c hc; simpa using hc
            | cons z v => simp at h2
        have h1 : endSt false 0 ('`' :: x) = (true, 0) := by
          rw [show '`' :: x = ['`'] ++ x by rfl, endSt_append]
          have : endSt false 0 ['`'] = (true, 0) := by decide
          rw [this, endSt_ticks x fun hc => codeSpan_tick h (hxt _ hc)]
        unfold EndsOutside at he
        rw [h1] at he
        cases he
    rw [map_flat hun] at hu
    exact hu.symm

theorem cut_spans : ∀ {ss : List Span}, SpansOk ss → ∀ {u : List Char}, u.map flatChar = (spansText ss).map flatChar → CutOk u →
    ∃ ss', spansText ss' = u ∧ ss'.map flatSpan = ss.map flatSpan
  | [], _, u, hu, _ => ⟨[], by simp [spansText] at hu ⊢; exact hu, rfl⟩
  | s :: r, h, u, hu, hc => by
    rw [spansText_cons, List.map_append] at hu
    obtain ⟨u1, u2, rfl, h1, h2⟩ := List.map_eq_append_iff.1 hu
    obtain ⟨s', e1, e2⟩ := cut_span h.1 h1 (cutOk_left hc)
    have hs' : EndsOutside u1 := by
      rw [← e1]; exact span_ends ((spanOk_flat s').1 (e2 ▸ (spanOk_flat s).2 h.1))
    obtain ⟨r', e3, e4⟩ := cut_spans h.2.2 h2 (cutOk_right hc hs')
    exact ⟨s' :: r', by rw [spansText_cons, e1, e3], by simp [e2, e4]⟩

theorem endSt_inside : ∀ (x t : List Char), x <+: t → '[' ∉ t → ']' ∉ t → endSt false 1 x = (false, 1)
  | x, t, h, h1, h2 => endSt_bracket x (fun hc => h1 (h.subset hc)) (fun hc => h2 (h.subset hc))

theorem cut_link {t : List Char} (h : LinkOk t) {u : List Char} (hu : u.map flatChar = (['['] ++ t ++ [']']).map flatChar) (hc : CutOk u) :
    u = ['['] ++ t ++ [']'] := by
  rw [map_flat (link_nl h)] at hu
  have hun : '\n' ∉ u := by
    intro hm
    obtain ⟨x, y, e, hx⟩ := List.eq_append_cons_of_mem hm
    have he := hc x y e
    rw [e, List.map_append, map_flat hx] at hu
    simp only [List.map_cons] at hu
    cases x with
    | nil => exact absurd hu (by simp [flatChar])
    | cons c x =>
      simp only [List.cons_append, List.nil_append, List.cons.injEq] at hu
      obtain ⟨rfl, hu⟩ := hu
      have hxt : x <+: t := by
        rcases List.append_eq_append_iff.1 hu with ⟨v, rfl, _⟩ | ⟨v, rfl, h2⟩
        · exact List.prefix_append _ _
        · cases v with
          | nil => simp
          | cons z v => simp at h2
      have h1 : endSt false 0 ('[' :: x) = (false, 1) := by
        rw [show '[' :: x = ['['] ++ x by rfl, endSt_append]
        have : endSt false 0 ['['] = (false, 1) := by decide
        rw [this, endSt_inside x t hxt (link_not_mem h _ (by decide) (by decide)) (link_not_mem h _ (by decide) (by decide))]
      unfold EndsOutside at he
      rw [h1] at he
      cases he
  rw [map_flat hun] at hu
  exact hu

theorem cut_direct {image : Bool} {t url : List Char} (h : LinkOk t ∧ AddressOk image t url) {u : List Char}
    (hu : u.map flatChar = (runText (.direct image t url)).map flatChar) (hc : CutOk u) : u = runText (.direct image t url) := by
  have noSpace : ∀ {v w : List Char}, ' ' ∉ w → '\n' ∉ w → v.map flatChar = w.map flatChar → v = w := by
    intro v w h1 h2 e
    rw [map_flat h2] at e
    have : '\n' ∉ v := fun hm => h1 (e ▸ List.mem_map.2 ⟨_, hm, by decide⟩)
    rwa [map_flat this] at e
  rw [runText, List.map_append, List.map_append] at hu
  obtain ⟨u0, u3, rfl, h0, h3⟩ := List.map_eq_append_iff.1 hu
  obtain ⟨u1, u2, rfl, h1, h2⟩ := List.map_eq_append_iff.1 h0
  have e1 := noSpace (by cases image <;> decide) (bang_nl image) h1
  have e3 := noSpace (by
    simp only [List.mem_append, List.mem_singleton, not_or]
    exact ⟨⟨by decide, address_char h.2 _ (.inl (by decide)) (by decide)⟩, by decide⟩) (address_nl h.2) h3
  have e2 := cut_link h.1 h2 (cutOk_right (cutOk_left hc) (e1 ▸ bang_ends image))
  rw [e1, e2, e3, runText]

/-- If only line breaks and spaces differ, and lines end outside of code spans, then the content is the same. -/
theorem cut_runs : ∀ {a : List Run} {p : Option Char}, RunsOk p a → ∀ {u : List Char}, u.map flatChar = (runsText a).map flatChar →
    CutOk u → ∃ b, runsText b = u ∧ b.map flatRun = a.map flatRun
  | [], _, _, u, hu, _ => ⟨[], by simp [runsText] at hu ⊢; exact hu, rfl⟩
  | .span s :: r, _, h, u, hu, hc => by
    rw [runsText_cons, runText, List.map_append] at hu
    obtain ⟨u1, u2, rfl, h1, h2⟩ := List.map_eq_append_iff.1 hu
    obtain ⟨s', e1, e2⟩ := cut_span h.1 h1 (cutOk_left hc)
    have hs' : EndsOutside u1 := by
      rw [← e1]; exact span_ends ((spanOk_flat s').1 (e2 ▸ (spanOk_flat s).2 h.1))
    obtain ⟨r', e3, e4⟩ := cut_runs h.2.2 h2 (cutOk_right hc hs')
    exact ⟨.span s' :: r', by rw [runsText_cons, runText, e1, e3], by simp [flatRun, e2, e4]⟩
  | .emph d strong inner :: r, _, h, u, hu, hc => by
    rw [runsText_cons, runText, List.map_append, List.map_append, List.map_append, mark_flat h.1] at hu
    obtain ⟨u0, u2, rfl, h0, h2⟩ := List.map_eq_append_iff.1 hu
    obtain ⟨u01, u3, rfl, h01, h3⟩ := List.map_eq_append_iff.1 h0
    obtain ⟨u4, u1, rfl, h4, h1⟩ := List.map_eq_append_iff.1 h01
    have hmark : ∀ v : List Char, v.map flatChar = emphMark d strong → v = emphMark d strong := by
      intro v hv
      have : '\n' ∉ v := by
        intro hm
        have : ' ' ∈ emphMark d strong := by rw [← hv]; exact List.mem_map.2 ⟨_, hm, by decide⟩
        revert this
        rcases h.1 with rfl | rfl <;> cases strong <;> decide
      rwa [map_flat this] at hv
    rw [hmark u3 h3, hmark u4 h4] at hc ⊢
    have hm := mark_ends h.1 strong
    obtain ⟨i', e1, e2⟩ := cut_spans h.2.1 h1 (cutOk_right (cutOk_left (cutOk_left hc)) hm)
    have hi' : EndsOutside u1 := by
      rw [← e1]; exact spans_ends ((spansOk_flat i').1 (e2 ▸ (spansOk_flat inner).2 h.2.1))
    have h5 : EndsOutside (emphMark d strong ++ u1 ++ emphMark d strong) := by
      rw [List.append_assoc, ends_append hm, ends_append hi']; exact hm
    obtain ⟨r', e3, e4⟩ := cut_runs h.2.2.2.2 h2 (cutOk_right hc h5)
    exact ⟨.emph d strong i' :: r', by rw [runsText_cons, runText, e1, e3], by simp [flatRun, e2, e4]⟩
  | .link t :: r, _, h, u, hu, hc => by
    rw [runsText_cons, runText, List.map_append] at hu
    obtain ⟨u1, u2, rfl, h1, h2⟩ := List.map_eq_append_iff.1 hu
    have e1 := cut_link h.1 h1 (cutOk_left hc)
    obtain ⟨r', e3, e4⟩ := cut_runs h.2.2.2 h2 (cutOk_right hc (e1 ▸ link_ends h.1))
    exact ⟨.link t :: r', by rw [runsText_cons, runText, e1, e3], by simp [flatRun, e4]⟩
  | .direct image t url :: r, _, h, u, hu, hc => by
    rw [runsText_cons, List.map_append] at hu
    obtain ⟨u1, u2, rfl, h1, h2⟩ := List.map_eq_append_iff.1 hu
    have e1 := cut_direct h.1 h1 (cutOk_left hc)
    obtain ⟨r', e3, e4⟩ := cut_runs h.2.2.2 h2 (cutOk_right hc (e1 ▸ direct_ends h.1))
    exact ⟨.direct image t url :: r', by rw [runsText_cons, e1, e3], by simp [flatRun, e4]⟩

end Hongdown.Model
