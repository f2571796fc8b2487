import Verif.Lemmas.Curled
import Verif.Spec.SingleQuotes

namespace Hongdown
open Model Spec

theorem pairs_split_right {α β : Type} {R : α → β → Prop} : ∀ {s : List α} {t t' : List β}, Pairs R s (t ++ t') →
    ∃ s1 s2, s = s1 ++ s2 ∧ Pairs R s1 t ∧ Pairs R s2 t'
  | s, [], _, h => ⟨[], s, rfl, trivial, h⟩
  | _ :: _, _ :: _, _, h => by
    obtain ⟨s1, s2, rfl, h1, h2⟩ := pairs_split_right h.2
    exact ⟨_ :: s1, s2, rfl, ⟨h.1, h1⟩, h2⟩

theorem apo_other {u : Uni} {f : Bool} {s : List Char} {i : Nat} {d : Char} (hd : d ≠ '\'') (h : s[i]? = some d) :
    (stApo u f s)[i]? = some d := by
  unfold stApo
  split
  · rw [transformApostrophes]
    have key : ∀ (s : List Char) (n : Nat) (p : Option Char) (i : Nat), s[i]? = some d →
        (ctxMap (apostropheStep u) n p s)[i]? = some d := by
      intro s
      induction s with
      | nil => intro n p i h; simp at h
      | cons c s ih =>
        intro n p i hi
        rw [ctxMap]
        cases i with
        | zero =>
          have hc : c = d := by simpa using hi
          subst hc
          rw [List.getElem?_cons_zero, apostropheStep, if_neg hd]
        | succ i =>
          rw [List.getElem?_cons_succ] at hi ⊢
          exact ih _ _ i hi
    exact key s 0 none i h
  · exact h

theorem ctxState_inWord {u : Uni} (st : Bool) (b : List Char) : ∀ a pre : List Char,
    (∀ p q, a = p ++ '\'' :: q → InWord u (pre ++ p) q) → ctxState (singleStep u) st pre.getLast? a b = st
  | [], _, _ => rfl
  | c :: a, pre, h => by
    have e : (singleStep u st pre.getLast? c (a ++ b)).2 = st := by
      by_cases hc : c = '\''
      · subst hc
        have h := h [] a rfl
        rw [List.append_nil] at h
        have hk : singleKeeps u st pre.getLast? (a ++ b) = true := by
          apply keeps_inWord
          refine ⟨h.1, ?_⟩
          obtain ⟨y, hy, h2⟩ := h.2
          refine ⟨y, ?_, h2⟩
          cases a with
          | nil => cases hy
          | cons d a => exact hy
        rw [singleStep, if_pos rfl, if_pos hk]
      · exact singleStep_state hc
    rw [ctxState, e]
    have := ctxState_inWord st b a (pre ++ [c]) (fun p q e => by
      have := h (c :: p) q (by rw [e]; rfl)
      simpa using this)
    simpa using this

theorem ctxState_inWord0 {u : Uni} (st : Bool) {a : List Char} (b : List Char) (h : OnlyInWord u a) :
    ctxState (singleStep u) st none a b = st :=
  ctxState_inWord st b a [] (fun p q e => h p q e)

theorem ctxState_inWord1 {u : Uni} (st : Bool) {a : List Char} (b : List Char) (m : Char) (h : OnlyInWord u a) :
    ctxState (singleStep u) st (some m) a b = st :=
  ctxState_inWord st b a [m] (fun p q e => by
    have := h p q e
    refine ⟨?_, this.2⟩
    obtain ⟨x, hx, h1⟩ := this.1
    refine ⟨x, ?_, h1⟩
    have hx : p.getLast? = some x := hx
    show ([m] ++ p).getLast? = some x
    rw [List.getLast?_append, hx]; rfl)

theorem onlyInWord_dbl {u : Uni} (hu : MarksNoLetters u) {s s' : List Char} (hp : Pairs Dbl s s') (h : OnlyInWord u s) :
    OnlyInWord u s' := by
  rintro p' q' rfl
  obtain ⟨p, r, rfl, h1, h2⟩ := pairs_split_right hp
  match r, h2 with
  | c :: q, h2 =>
    have hc : c = '\'' := by
      rcases h2.1 with ⟨_, e⟩ | ⟨_, e | e | e⟩
      · exact e.symm
      all_goals exact absurd e (by decide)
    subst hc
    exact inWord_dbl hu h1 h2.2 (h p q rfl)

theorem opens_step {u : Uni} (hu : MarksNoLetters u) {a w b : List Char} (h : SingleQuotation u a w b) (hl : w.length < 50) :
    singleStep u true a.getLast? '\'' (w ++ '\'' :: b) = ('‘', false) := by
  obtain ⟨y, hy, hy1, hy2⟩ := h.first
  have hy : w.head? = some y := hy
  have hh : (w ++ '\'' :: b).head? = some y := by
    cases w with
    | nil => cases hy
    | cons c w => exact hy
  have h50 : ((w ++ '\'' :: b).take 50).any (· = '\'') = true := by
    rw [List.any_eq_true]
    refine ⟨'\'', ?_, by simp⟩
    rw [List.take_append, show 50 - w.length = (49 - w.length) + 1 by omega, List.take_succ_cons]
    simp
  obtain ⟨hw1, hw2, hw3⟩ := alphabetic_not hu hy1
  cases e : a.getLast? with
  | none =>
    have ha0 : a = [] := by simpa using e
    have hp : possessiveAhead u (w ++ '\'' :: b) = false := by
      cases e : possessiveAhead u (w ++ '\'' :: b) with
      | false => rfl
      | true => exact absurd (possessiveAhead_iff e) (h.noS ha0)
    have hk : singleKeeps u true none (w ++ '\'' :: b) = false := by simp [singleKeeps, hp]
    rw [singleStep, if_pos rfl, hk, hh]
    simp only [Bool.false_eq_true, if_false, Option.any_some, hy2, hy1, h50]
    rfl
  | some z =>
    have hz := h.before z e
    have hz1 : u.alphabetic z = false := hu z (by
      rcases hz with hz | hz
      · exact .inl hz
      · refine .inr (.inl ?_)
        exact (show ∀ z ∈ ['(', '[', '{'], isAsciiPunct z = true by decide) z hz)
    have hne : ∀ d, isWs d = false → d ∉ ['(', '[', '{'] → z ≠ d := by
      rintro d hd hd2 rfl
      rcases hz with hz | hz
      · rw [hz] at hd; cases hd
      · exact hd2 hz
    have hzd : isAsciiDigit z = false := by
      rcases hz with hz | hz
      · cases e : isAsciiDigit z with
        | false => rfl
        | true =>
          simp only [isAsciiDigit, isWs, Bool.or_eq_true, Bool.and_eq_true, decide_eq_true_eq, beq_iff_eq] at e hz
          omega
      · exact (show ∀ z ∈ ['(', '[', '{'], isAsciiDigit z = false by decide) z hz
    have hk : singleKeeps u true (some z) (w ++ '\'' :: b) = false := by
      simp [singleKeeps, hz1, hzd, hne ']' (by decide) (by decide), hne ')' (by decide) (by decide), hne '}' (by decide) (by decide)]
    rw [singleStep, if_pos rfl, hk, hh]
    simp only [Bool.false_eq_true, if_false, Option.any_some, hy2, hy1, h50]
    cases hws : isWs z with
    | true => simp [lsq]
    | false =>
      have hz : z ∈ ['(', '[', '{'] := by simpa [hws] using hz
      have hcl : ∀ d, isAsciiPunct d = true → y ≠ d := by rintro d hd rfl; rw [hw2] at hd; cases hd
      have hcl2 : ∀ d, d ∈ ['“', '”', '‘', '’'] → y ≠ d := by rintro d hd rfl; exact hw3 hd
      have ho : shouldBeOpening (some z) (some y) true = true := by
        rcases (by simpa using hz : z = '(' ∨ z = '[' ∨ z = '{') with rfl | rfl | rfl <;> simp [shouldBeOpening]
      simp [ho, lsq]

theorem closes_step {u : Uni} {x : Char} {b : List Char} (hu : MarksNoLetters u) (hx : isWs x = false)
    (hx2 : x ∉ ['(', '[', '{', '"', '“', '‘']) (hb : ∀ y ∈ b.head?, isWs y = true ∨ (isAsciiPunct y = true ∧ y ≠ '"')) :
    (singleStep u false (some x) '\'' b).1 = '’' := by
  have hne : ∀ d, d ∈ ['(', '[', '{', '"', '“', '‘'] → x ≠ d := by rintro d hd rfl; exact hx2 hd
  have hp : possessiveAhead u b = false := by
    cases e : b.head? with
    | none => simp [possessiveAhead, e]
    | some z =>
      have : ∀ d, isWs d = false → isAsciiPunct d = false → z ≠ d := by
        rintro d hd hd2 rfl
        rcases hb z e with h | h
        · rw [h] at hd; cases hd
        · rw [h.1] at hd2; cases hd2
      simp [possessiveAhead, e, this 's' (by decide) (by decide), this 'S' (by decide) (by decide)]
  have hl : b.head?.any u.alphabetic = false := by
    cases e : b.head? with
    | none => rfl
    | some z =>
      rcases hb z e with h | h
      · exact hu z (.inl h)
      · exact hu z (.inr (.inl h.1))
  have hd : b.head?.any isAsciiDigit = false := by
    cases e : b.head? with
    | none => rfl
    | some z =>
      have h := hb z e
      cases e : isAsciiDigit z with
      | false => simpa using e
      | true =>
        simp only [isAsciiDigit, isWs, isAsciiPunct, Bool.or_eq_true, Bool.and_eq_true, decide_eq_true_eq, beq_iff_eq] at e h
        omega
  have hk : singleKeeps u false (some x) b = false := by simp [singleKeeps, hl, hp]
  have ho : shouldBeOpening (some x) b.head? false = false := by
    simp [shouldBeOpening, hx, hne '(' (by decide), hne '[' (by decide), hne '{' (by decide), ldq, lsq, hne '“' (by decide),
      hne '‘' (by decide)]
  rw [singleStep, if_pos rfl, hk]
  simp only [Bool.false_eq_true, if_false, hd, hl, ho, Bool.and_false]
  rfl

theorem single_quotation {u : Uni} (hu : MarksNoLetters u) {a w b : List Char} (h : SingleQuotation u a w b) (hl : w.length < 50) :
    (stSgl u true (a ++ '\'' :: (w ++ '\'' :: b)))[a.length]? = some '‘' ∧
      (stSgl u true (a ++ '\'' :: (w ++ '\'' :: b)))[a.length + 1 + w.length]? = some '’' := by
  have hstep := opens_step hu h hl
  obtain ⟨x, hx, hx1, hx2⟩ := h.last
  have hx : w.getLast? = some x := hx
  constructor
  · rw [stSgl, if_pos rfl, transformSingleQuotes, ctxMap_at, ctxState_inWord0 true _ h.others.1, hstep]
  · have e : a ++ '\'' :: (w ++ '\'' :: b) = (a ++ '\'' :: w) ++ '\'' :: b := by simp
    have hlen : a.length + 1 + w.length = (a ++ '\'' :: w).length := by simp; omega
    have hg : (a ++ '\'' :: w).getLast? = some x := by
      rw [List.getLast?_append, List.getLast?_cons, hx]; rfl
    rw [stSgl, if_pos rfl, transformSingleQuotes, e, hlen, ctxMap_at, ctxState_append, List.cons_append,
      ctxState_inWord0 true _ h.others.1, hg, ctxState]
    rw [show a.getLast?.or none = a.getLast? by simp, hstep, ctxState_inWord1 _ _ _ h.others.2,
      closes_step hu hx1 hx2 h.after]

end Hongdown
