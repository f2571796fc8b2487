import Verif.Lemmas.Content

/-!
# Text has one content
-/

namespace Hongdown.Model
open Spec

/-- A character of text. -/
def textChar (c : Char) : Bool := plainChar c || gapChar c

theorem spanOk_textChar {t : List Char} (h : SpanOk (.text t)) : ∀ c ∈ t, textChar c = true := by
  intro c hc
  rw [textChar, Bool.or_eq_true]
  exact h.2.1 c hc

/-- A run of characters with a property is all of the run. -/
theorem run_unique {f : Char → Bool} : ∀ {t t' x x' : List Char}, (∀ c ∈ t, f c = true) → (∀ c ∈ t', f c = true) →
    (∀ c ∈ x.head?, f c = false) → (∀ c ∈ x'.head?, f c = false) → t ++ x = t' ++ x' → t = t' ∧ x = x'
  | [], [], x, x', _, _, _, _, e => ⟨rfl, e⟩
  | [], c :: t', x, x', _, h2, h3, _, e => by
    simp only [List.nil_append] at e
    have := h3 c (by rw [e]; rfl)
    rw [h2 c (by simp)] at this
    cases this
  | c :: t, [], x, x', h1, _, _, h4, e => by
    simp only [List.nil_append] at e
    have := h4 c (by rw [← e]; rfl)
    rw [h1 c (by simp)] at this
    cases this
  | c :: t, d :: t', x, x', h1, h2, h3, h4, e => by
    simp only [List.cons_append, List.cons.injEq] at e
    obtain ⟨rfl, e⟩ := e
    obtain ⟨rfl, rfl⟩ := run_unique (fun c hc => h1 c (by simp [hc])) (fun c hc => h2 c (by simp [hc])) h3 h4 e
    exact ⟨rfl, rfl⟩

/-- Text ends here: no text follows, or an image. -/
def Stops (x : List Char) : Prop := ∀ c ∈ x.head?, textChar c = false ∨ (c = '!' ∧ x.tail.head? = some '[')

/-- What is after text does not begin with text. -/
def TextEnds (s : Span) (x : List Char) : Prop :=
  match s with
  | .text t => Stops x ∧ (x.head? = some '[' → t.getLast? ≠ some '!')
  | .code _ => True

theorem text_prefix {t u x x' : List Char} (hu : ∀ c ∈ u, textChar c = true) (hx : Stops x)
    (hx' : x'.head? = some '[' → (t ++ u).getLast? ≠ some '!') (e : x = u ++ x') : u = [] := by
  cases u with
  | nil => rfl
  | cons c u =>
    exfalso
    have h1 := hx c (by rw [e]; rfl)
    rw [hu c (by simp)] at h1
    rcases h1 with h1 | ⟨rfl, h1⟩
    · cases h1
    · rw [e] at h1
      cases u with
      | nil => exact hx' (by simpa using h1) (by simp)
      | cons d u =>
        simp only [List.cons_append, List.tail_cons, List.head?_cons, Option.some.injEq] at h1
        have := hu d (by simp)
        rw [h1] at this
        exact absurd this (by decide)

theorem text_unique {t t' x x' : List Char} (h : ∀ c ∈ t, textChar c = true) (h' : ∀ c ∈ t', textChar c = true)
    (hx : TextEnds (.text t) x) (hx' : TextEnds (.text t') x') (e : t ++ x = t' ++ x') : t = t' ∧ x = x' := by
  rcases List.append_eq_append_iff.1 e with ⟨u, rfl, e2⟩ | ⟨u, rfl, e2⟩
  · have := text_prefix (t := t) (fun c hc => h' c (by simp [hc])) hx.1 hx'.2 e2
    subst this
    exact ⟨by simp, by simpa using e2⟩
  · have := text_prefix (t := t') (fun c hc => h c (by simp [hc])) hx'.1 hx.2 e2
    subst this
    exact ⟨by simp, by simpa using e2.symm⟩

theorem span_unique {s s' : Span} {x x' : List Char} (h : SpanOk s) (h' : SpanOk s') (hx : TextEnds s x) (hx' : TextEnds s' x')
    (e : spanText s ++ x = spanText s' ++ x') : s = s' ∧ x = x' := by
  have no : ∀ {t u : List Char} {y z : List Char}, SpanOk (.text t) → t ++ y = ['`'] ++ u ++ ['`'] ++ z → False := by
    intro t u y z h e
    cases t with
    | nil => exact h.1 rfl
    | cons c t =>
      simp only [List.cons_append, List.nil_append, List.cons.injEq] at e
      have := h.2.1 c (by simp)
      rw [e.1] at this
      exact absurd this (by decide)
  cases s with
  | text t =>
    cases s' with
    | text t' =>
      obtain ⟨rfl, rfl⟩ := text_unique (spanOk_textChar h) (spanOk_textChar h') hx hx' e
      exact ⟨rfl, rfl⟩
    | code t' => exact (no h e).elim
  | code t =>
    cases s' with
    | text t' => exact (no h' e.symm).elim
    | code t' =>
      simp only [spanText, List.append_assoc, List.cons_append, List.nil_append, List.cons.injEq, true_and] at e
      have ht : ∀ {u : List Char}, SpanOk (.code u) → ∀ c ∈ u, (c != '`') = true := by
        intro u hu c hc
        rw [bne_iff_ne]
        rintro rfl
        exact codeSpan_tick hu hc
      obtain ⟨rfl, e2⟩ := run_unique (f := (· != '`')) (ht h) (ht h') (by simp) (by simp) e
      simp only [List.cons.injEq, true_and] at e2
      exact ⟨rfl, e2⟩

theorem span_head {s : Span} (h : SpanOk s) (x : List Char) :
    ∃ c y, spanText s ++ x = c :: y ∧ c ≠ '*' ∧ c ≠ '_' ∧ ((∃ t, s = .code t) → textChar c = false) ∧ c ≠ '[' := by
  cases s with
  | text t =>
    cases t with
    | nil => exact absurd rfl h.1
    | cons c t =>
      have hc := h.2.1 c (by simp)
      exact ⟨c, t ++ x, rfl, textChar_ne hc _ (by decide) (by decide), textChar_ne hc _ (by decide) (by decide), by simp,
        textChar_ne hc _ (by decide) (by decide)⟩
  | code t => exact ⟨'`', _, rfl, by decide, by decide, fun _ => by decide, by decide⟩

theorem mark_textChar {d : Char} (hd : d = '*' ∨ d = '_') : textChar d = false := by rcases hd with rfl | rfl <;> decide

theorem textEnds_of {s : Span} {x : List Char} (hx : ∀ c ∈ x.head?, textChar c = false) (hb : x.head? ≠ some '[') : TextEnds s x := by
  cases s with
  | text t => exact ⟨fun c hc => .inl (hx c hc), fun h => absurd h hb⟩
  | code t => trivial

theorem textEnds_spans {s : Span} {r : List Span} (h : SpansOk (s :: r)) {x : List Char} (hx : ∀ c ∈ x.head?, textChar c = false)
    (hb : x.head? ≠ some '[') : TextEnds s (spansText r ++ x) := by
  cases s with
  | code t => trivial
  | text t =>
    cases r with
    | nil => exact textEnds_of hx hb
    | cons u r =>
      have hu := h.2.1 u (by simp)
      have hok := h.2.2.1
      rw [spansText_cons, List.append_assoc]
      obtain ⟨c, y, e, _, _, hc, hn⟩ := span_head hok (spansText r ++ x)
      rw [e]
      refine textEnds_of (fun z hz => ?_) (by simpa using hn)
      cases hz
      refine hc ?_
      cases u with
      | text t => cases hu
      | code t => exact ⟨t, rfl⟩

theorem mark_bracket {d : Char} (hd : d = '*' ∨ d = '_') (x : List Char) : (d :: x).head? ≠ some '[' := by
  rcases hd with rfl | rfl <;> simp

theorem spans_unique : ∀ {i i' : List Span} {d d' : Char} {x x' : List Char}, SpansOk i → SpansOk i' → (d = '*' ∨ d = '_') →
    (d' = '*' ∨ d' = '_') → spansText i ++ d :: x = spansText i' ++ d' :: x' → i = i' ∧ d :: x = d' :: x'
  | [], [], d, d', x, x', _, _, _, _, e => ⟨rfl, e⟩
  | [], s :: r, d, d', x, x', _, h2, h3, _, e => by
    rw [spansText_cons, List.append_assoc] at e
    obtain ⟨c, y, e2, n1, n2, _⟩ := span_head h2.1 (spansText r ++ d' :: x')
    rw [e2] at e
    simp only [spansText, List.flatMap_nil, List.nil_append, List.cons.injEq] at e
    rw [← e.1] at n1 n2
    rcases h3 with h3 | h3
    · exact absurd h3 n1
    · exact absurd h3 n2
  | s :: r, [], d, d', x, x', h1, _, _, h4, e => by
    rw [spansText_cons, List.append_assoc] at e
    obtain ⟨c, y, e2, n1, n2, _⟩ := span_head h1.1 (spansText r ++ d :: x)
    rw [e2] at e
    simp only [spansText, List.flatMap_nil, List.nil_append, List.cons.injEq] at e
    rw [e.1] at n1 n2
    rcases h4 with h4 | h4
    · exact absurd h4 n1
    · exact absurd h4 n2
  | s :: r, s' :: r', d, d', x, x', h1, h2, h3, h4, e => by
    rw [spansText_cons, spansText_cons, List.append_assoc, List.append_assoc] at e
    obtain ⟨rfl, e'⟩ := span_unique h1.1 h2.1 (textEnds_spans h1 (by simpa using mark_textChar h3) (mark_bracket h3 _))
      (textEnds_spans h2 (by simpa using mark_textChar h4) (mark_bracket h4 _)) e
    obtain ⟨rfl, e2⟩ := spans_unique h1.2.2 h2.2.2 h3 h4 e'
    exact ⟨rfl, e2⟩

theorem run_head {d : Char} {strong : Bool} {inner : List Span} (x : List Char) :
    ∃ y, runText (.emph d strong inner) ++ x = d :: y := by
  cases strong <;> simp [runText, emphMark]

theorem textEnds_runs {s : Span} {r : List Run} {p : Option Char} (h : RunsOk p (.span s :: r)) : TextEnds s (runsText r) := by
  cases s with
  | code t => trivial
  | text t =>
    cases r with
    | nil => exact textEnds_of (by simp [runsText]) (by simp [runsText])
    | cons u r =>
      have hu := h.2.1
      have hr := h.2.2
      rw [runsText_cons]
      have hl : t.getLast?.all beforeLink = true → t.getLast? ≠ some '!' := by
        intro h e; rw [e] at h; exact absurd h (by decide)
      cases u with
      | span u =>
        have := hu u rfl
        obtain ⟨z, y, e, _, _, hz, hn⟩ := span_head hr.1 (runsText r)
        rw [runText, e]
        refine textEnds_of (fun c hc => ?_) (by simpa using hn)
        cases hc
        refine hz ?_
        cases u with
        | text t => cases this
        | code t => exact ⟨t, rfl⟩
      | emph d strong inner =>
        obtain ⟨y, e⟩ := run_head (d := d) (strong := strong) (inner := inner) (runsText r)
        rw [e]
        refine textEnds_of (fun c hc => ?_) (mark_bracket hr.1 _)
        cases hc
        exact mark_textChar hr.1
      | link t =>
        refine ⟨fun c hc => ?_, fun _ => hl hr.2.1⟩
        simp only [runText, List.cons_append, List.head?_cons, Option.mem_some] at hc
        rw [← hc]; exact .inl (by decide)
      | direct image t url =>
        refine ⟨fun c hc => ?_, fun _ => hl hr.2.1⟩
        cases image with
        | true =>
          simp only [runText, bangOf, if_true, List.cons_append, List.nil_append, List.head?_cons, Option.mem_some] at hc
          rw [← hc]; exact .inr ⟨rfl, rfl⟩
        | false =>
          simp only [runText, bangOf, Bool.false_eq_true, if_false, List.cons_append, List.nil_append, List.head?_cons, Option.mem_some] at hc
          rw [← hc]; exact .inl (by decide)

/-- How an image or a link begins. -/
theorem direct_head {image : Bool} {t url : List Char} (x : List Char) :
    ∃ y, runText (.direct image t url) ++ x = bangOf image ++ '[' :: y := by
  simp [runText]

theorem direct_first {image : Bool} {t url : List Char} (x : List Char) :
    ∃ c y, runText (.direct image t url) ++ x = c :: y ∧ (c = '!' ∨ c = '[') := by
  cases image
  · exact ⟨'[', t ++ ']' :: '(' :: (url ++ ')' :: x), by simp [runText, bangOf], .inr rfl⟩
  · exact ⟨'!', '[' :: (t ++ ']' :: '(' :: (url ++ ')' :: x)), by simp [runText, bangOf], .inl rfl⟩

/-- An image does not begin like text. -/
theorem span_direct {s : Span} {x y : List Char} (h : SpanOk s) (hx : TextEnds s x) {image : Bool}
    (e : spanText s ++ x = bangOf image ++ '[' :: y) : False := by
  obtain ⟨c, z, e1, _, _, hc, hn⟩ := span_head h x
  cases image with
  | false =>
    rw [e1] at e
    exact hn (by simpa [bangOf] using (List.cons.inj e).1)
  | true =>
    cases s with
    | code t => simp [spanText, bangOf] at e
    | text t =>
      simp only [spanText, bangOf, if_true, List.cons_append, List.nil_append] at e
      cases t with
      | nil => exact h.1 rfl
      | cons d t =>
        simp only [List.cons_append, List.cons.injEq] at e
        obtain ⟨rfl, e⟩ := e
        cases t with
        | nil =>
          simp only [List.nil_append] at e
          exact hx.2 (by rw [e]; rfl) (by simp)
        | cons d t =>
          simp only [List.cons_append, List.cons.injEq] at e
          have := spanOk_textChar h d (by simp)
          rw [e.1] at this
          exact absurd this (by decide)

theorem link_unique {t t' x x' : List Char} (h : LinkOk t) (h' : LinkOk t') (e : ['['] ++ t ++ [']'] ++ x = ['['] ++ t' ++ [']'] ++ x') :
    t = t' ∧ x = x' := by
  simp only [List.append_assoc, List.cons_append, List.nil_append, List.cons.injEq, true_and] at e
  have ht : ∀ {u : List Char}, LinkOk u → ∀ c ∈ u, (c != ']') = true := by
    intro u hu c hc
    rw [bne_iff_ne]
    rintro rfl
    exact link_not_mem hu _ (by decide) (by decide) hc
  obtain ⟨rfl, e2⟩ := run_unique (f := (· != ']')) (ht h) (ht h') (by simp) (by simp) e
  simp only [List.cons.injEq, true_and] at e2
  exact ⟨rfl, e2⟩

theorem direct_unique {image image' : Bool} {t t' url url' x x' : List Char} (h : LinkOk t ∧ AddressOk image t url)
    (h' : LinkOk t' ∧ AddressOk image' t' url')
    (e : runText (.direct image t url) ++ x = runText (.direct image' t' url') ++ x') : image = image' ∧ t = t' ∧ url = url' ∧ x = x' := by
  have hi : image = image' := by
    cases image <;> cases image' <;> simp [runText, bangOf] at e ⊢
  subst hi
  simp only [runText, List.append_assoc] at e
  have e := List.append_cancel_left e
  obtain ⟨rfl, e2⟩ := link_unique (x := ['('] ++ (url ++ ([')'] ++ x))) (x' := ['('] ++ (url' ++ ([')'] ++ x'))) h.1 h'.1 (by simpa using e)
  have ht : ∀ {u t : List Char}, AddressOk image t u → ∀ c ∈ u, (c != ')') = true := by
    intro u t hu c hc
    rw [bne_iff_ne]
    rintro rfl
    exact address_char hu _ (.inr (.inr rfl)) (by decide) hc
  simp only [List.cons_append, List.nil_append, List.cons.injEq, true_and] at e2
  obtain ⟨rfl, e3⟩ := run_unique (f := (· != ')')) (ht h.2) (ht h'.2) (by simp) (by simp) e2
  simp only [List.cons.injEq, true_and] at e3
  exact ⟨rfl, rfl, rfl, e3⟩

/-- A link with its address is no shortcut reference. -/
theorem link_direct {image : Bool} {t t' url x x' : List Char} (h : LinkOk t) (h' : LinkOk t') (ha : x.head?.all afterLink = true)
    (e : ['['] ++ t ++ [']'] ++ x = runText (.direct image t' url) ++ x') : False := by
  cases image with
  | true => simp [runText, bangOf] at e
  | false =>
    simp only [runText, bangOf, Bool.false_eq_true, if_false, List.nil_append, List.append_assoc] at e
    obtain ⟨_, e2⟩ := link_unique (x := x) (x' := ['('] ++ (url ++ ([')'] ++ x'))) h h' (by simpa using e)
    rw [e2] at ha
    exact absurd ha (by simp [afterLink, gapChar])

theorem emph_inner {p : Option Char} {d : Char} {strong : Bool} {inner : List Span} {r : List Run} (h : RunsOk p (.emph d strong inner :: r)) :
    ∃ s i, inner = s :: i := by
  cases inner with
  | nil => exact absurd h.2.2.1 (by simp [opens, spansText])
  | cons s i => exact ⟨s, i, rfl⟩

/-- Text has one content. -/
theorem runs_unique : ∀ {a b : List Run} {p q : Option Char}, RunsOk p a → RunsOk q b → runsText a = runsText b → a = b
  | [], [], _, _, _, _, _ => rfl
  | [], .span s :: b, _, _, _, h, e => by
    obtain ⟨c, y, e2, _⟩ := span_head h.1 (runsText b)
    rw [runsText_cons, runText, e2] at e; simp [runsText] at e
  | [], .emph d strong i :: b, _, _, _, h, e => by
    obtain ⟨y, e2⟩ := run_head (d := d) (strong := strong) (inner := i) (runsText b)
    rw [runsText_cons, e2] at e; simp [runsText] at e
  | .span s :: a, [], _, _, h, _, e => by
    obtain ⟨c, y, e2, _⟩ := span_head h.1 (runsText a)
    rw [runsText_cons, runText, e2] at e; simp [runsText] at e
  | .emph d strong i :: a, [], _, _, h, _, e => by
    obtain ⟨y, e2⟩ := run_head (d := d) (strong := strong) (inner := i) (runsText a)
    rw [runsText_cons, e2] at e; simp [runsText] at e
  | [], .link t :: b, _, _, _, h, e => by
    rw [runsText_cons, runText] at e; simp [runsText] at e
  | .link t :: a, [], _, _, h, _, e => by
    rw [runsText_cons, runText] at e; simp [runsText] at e
  | .span s :: a, .link t :: b, _, _, h, _, e => by
    obtain ⟨c, y, e1, _, _, _, n⟩ := span_head h.1 (runsText a)
    rw [runsText_cons, runText, e1, runsText_cons, runText] at e
    simp only [List.cons_append, List.cons.injEq] at e
    exact absurd e.1 n
  | .link t :: b, .span s :: a, _, _, _, h, e => by
    obtain ⟨c, y, e1, _, _, _, n⟩ := span_head h.1 (runsText a)
    rw [runsText_cons, runsText_cons, runText, runText, e1] at e
    simp only [List.cons_append, List.cons.injEq] at e
    exact absurd e.1.symm n
  | .emph d strong i :: a, .link t :: b, _, _, h, _, e => by
    obtain ⟨z, e2⟩ := run_head (d := d) (strong := strong) (inner := i) (runsText a)
    rw [runsText_cons, e2, runsText_cons, runText] at e
    simp only [List.cons_append, List.cons.injEq] at e
    rcases h.1 with h3 | h3 <;> rw [h3] at e <;> exact absurd e.1 (by decide)
  | .link t :: b, .emph d strong i :: a, _, _, _, h, e => by
    obtain ⟨z, e2⟩ := run_head (d := d) (strong := strong) (inner := i) (runsText a)
    rw [runsText_cons, runsText_cons, e2, runText] at e
    simp only [List.cons_append, List.cons.injEq] at e
    rcases h.1 with h3 | h3 <;> rw [h3] at e <;> exact absurd e.1 (by decide)
  | .link t :: a, .link t' :: b, _, _, h, h', e => by
    rw [runsText_cons, runsText_cons, runText, runText] at e
    simp only [List.append_assoc, List.cons_append, List.nil_append, List.cons.injEq, true_and] at e
    have ht : ∀ {u : List Char}, LinkOk u → ∀ c ∈ u, (c != ']') = true := by
      intro u hu c hc
      rw [bne_iff_ne]
      rintro rfl
      exact link_not_mem hu _ (by decide) (by decide) hc
    obtain ⟨rfl, e2⟩ := run_unique (f := (· != ']')) (ht h.1) (ht h'.1) (by simp) (by simp) e
    simp only [List.cons.injEq, true_and] at e2
    rw [runs_unique h.2.2.2 h'.2.2.2 e2]
  | [], .direct image t url :: b, _, _, _, h, e => by
    rw [runsText_cons, runText] at e; simp [runsText] at e
  | .direct image t url :: a, [], _, _, h, _, e => by
    rw [runsText_cons, runText] at e; simp [runsText] at e
  | .direct image t url :: a, .direct image' t' url' :: b, _, _, h, h', e => by
    rw [runsText_cons, runsText_cons] at e
    obtain ⟨rfl, rfl, rfl, e2⟩ := direct_unique h.1 h'.1 e
    rw [runs_unique h.2.2.2 h'.2.2.2 e2]
  | .link t :: a, .direct image' t' url' :: b, _, _, h, h', e => by
    rw [runsText_cons, runsText_cons, runText] at e
    exact (link_direct h.1 h'.1.1 h.2.2.1 e).elim
  | .direct image' t' url' :: b, .link t :: a, _, _, h', h, e => by
    rw [runsText_cons, runsText_cons, runText] at e
    exact (link_direct h.1 h'.1.1 h.2.2.1 e.symm).elim
  | .span s :: a, .direct image' t' url' :: b, _, _, h, h', e => by
    obtain ⟨y, e2⟩ := direct_head (image := image') (t := t') (url := url') (runsText b)
    rw [runsText_cons, runsText_cons, e2, runText] at e
    exact (span_direct h.1 (textEnds_runs h) e).elim
  | .direct image' t' url' :: b, .span s :: a, _, _, h', h, e => by
    obtain ⟨y, e2⟩ := direct_head (image := image') (t := t') (url := url') (runsText b)
    rw [runsText_cons, runsText_cons, e2, runText] at e
    exact (span_direct h.1 (textEnds_runs h) e.symm).elim
  | .emph d strong i :: a, .direct image' t' url' :: b, _, _, h, _, e => by
    obtain ⟨z, e2⟩ := run_head (d := d) (strong := strong) (inner := i) (runsText a)
    obtain ⟨c, y, e3, h3⟩ := direct_first (image := image') (t := t') (url := url') (runsText b)
    rw [runsText_cons, runsText_cons, e2, e3] at e
    rcases h.1 with h4 | h4 <;> rcases h3 with h3 | h3 <;> rw [h3, h4] at e <;> exact absurd (List.cons.inj e).1 (by decide)
  | .direct image' t' url' :: b, .emph d strong i :: a, _, _, _, h, e => by
    obtain ⟨z, e2⟩ := run_head (d := d) (strong := strong) (inner := i) (runsText a)
    obtain ⟨c, y, e3, h3⟩ := direct_first (image := image') (t := t') (url := url') (runsText b)
    rw [runsText_cons, runsText_cons, e2, e3] at e
    rcases h.1 with h4 | h4 <;> rcases h3 with h3 | h3 <;> rw [h3, h4] at e <;> exact absurd (List.cons.inj e).1 (by decide)
  | .span s :: a, .span s' :: b, _, _, h, h', e => by
    rw [runsText_cons, runsText_cons, runText, runText] at e
    obtain ⟨rfl, e'⟩ := span_unique h.1 h'.1 (textEnds_runs h) (textEnds_runs h') e
    rw [runs_unique h.2.2 h'.2.2 e']
  | .span s :: a, .emph d strong i :: b, _, _, h, h', e => by
    obtain ⟨c, y, e1, n1, n2, _⟩ := span_head h.1 (runsText a)
    obtain ⟨z, e2⟩ := run_head (d := d) (strong := strong) (inner := i) (runsText b)
    rw [runsText_cons, runText, e1, runsText_cons, e2] at e
    simp only [List.cons.injEq] at e
    rw [e.1] at n1 n2
    rcases h'.1 with h3 | h3
    · exact absurd h3 n1
    · exact absurd h3 n2
  | .emph d strong i :: b, .span s :: a, _, _, h', h, e => by
    obtain ⟨c, y, e1, n1, n2, _⟩ := span_head h.1 (runsText a)
    obtain ⟨z, e2⟩ := run_head (d := d) (strong := strong) (inner := i) (runsText b)
    rw [runsText_cons, runsText_cons, runText, e1, e2] at e
    simp only [List.cons.injEq] at e
    rw [← e.1] at n1 n2
    rcases h'.1 with h3 | h3
    · exact absurd h3 n1
    · exact absurd h3 n2
  | .emph d strong i :: a, .emph d' strong' i' :: b, _, _, h, h', e => by
    obtain ⟨s, j, rfl⟩ := emph_inner h
    obtain ⟨s', j', rfl⟩ := emph_inner h'
    have mark : ∀ {strong strong' : Bool} {d : Char} {s s' : Span} {x x' : List Char}, SpanOk s → SpanOk s' → (d = '*' ∨ d = '_') →
        emphMark d strong ++ (spanText s ++ x) = emphMark d strong' ++ (spanText s' ++ x') → strong = strong' := by
      intro strong strong' d s s' x x' h h' hd e
      obtain ⟨c, y, e1, n1, n2, _⟩ := span_head h x
      obtain ⟨c', y', e2, n3, n4, _⟩ := span_head h' x'
      rw [e1, e2] at e
      cases strong <;> cases strong' <;> simp [emphMark] at e ⊢
      · rcases hd with rfl | rfl
        · exact n1 e.1
        · exact n2 e.1
      · rcases hd with rfl | rfl
        · exact n3 e.1.symm
        · exact n4 e.1.symm
    rw [runsText_cons, runsText_cons] at e
    have hdd : d = d' := by
      obtain ⟨y, e1⟩ := run_head (d := d) (strong := strong) (inner := s :: j) (runsText a)
      obtain ⟨z, e2⟩ := run_head (d := d') (strong := strong') (inner := s' :: j') (runsText b)
      rw [e1, e2] at e
      exact (List.cons.injEq .. ▸ e).1
    subst hdd
    simp only [runText, List.append_assoc] at e
    have hst : strong = strong' := by
      refine mark (d := d) h.2.1.1 h'.2.1.1 h.1 (x := spansText j ++ (emphMark d strong ++ runsText a))
        (x' := spansText j' ++ (emphMark d strong' ++ runsText b)) ?_
      rw [spansText_cons, spansText_cons, List.append_assoc, List.append_assoc] at e
      exact e
    subst hst
    have e := List.append_cancel_left e
    have hm : ∃ k, emphMark d strong = d :: k := by cases strong <;> simp [emphMark]
    obtain ⟨k, hk⟩ := hm
    rw [hk, List.cons_append, List.cons_append] at e
    obtain ⟨e1, e2⟩ := spans_unique h.2.1 h'.2.1 h.1 h.1 e
    rw [e1, runs_unique h.2.2.2.2 h'.2.2.2.2 (List.append_cancel_left (List.cons.inj e2).2)]

end Hongdown.Model
