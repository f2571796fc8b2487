import Verif.Spec.Apostrophe
import Verif.Lemmas.Pairs

namespace Hongdown.Model
open Spec

theorem pairs_split {α β : Type} {R : α → β → Prop} : ∀ {s s' : List α} {t : List β}, Pairs R (s ++ s') t →
    ∃ t1 t2, t = t1 ++ t2 ∧ Pairs R s t1 ∧ Pairs R s' t2
  | [], _, t, h => ⟨[], t, rfl, trivial, h⟩
  | _ :: _, _, _ :: _, h => by
    obtain ⟨t1, t2, rfl, h1, h2⟩ := pairs_split h.2
    exact ⟨_ :: t1, t2, rfl, ⟨h.1, h1⟩, h2⟩

theorem pairs_head {α β : Type} {R : α → β → Prop} : ∀ {s : List α} {t : List β}, Pairs R s t → ∀ y ∈ t.head?, ∃ x ∈ s.head?, R x y
  | [], [], _, y, h => by cases h
  | a :: _, b :: _, h, y, hy => by cases hy; exact ⟨a, rfl, h.1⟩

theorem pairs_last {α β : Type} {R : α → β → Prop} {s : List α} {t : List β} (h : Pairs R s t) : ∀ y ∈ t.getLast?, ∃ x ∈ s.getLast?, R x y := by
  rcases List.eq_nil_or_concat s with rfl | ⟨s', x, rfl⟩
  · cases t with
    | nil => intro y hy; cases hy
    | cons _ _ => exact h.elim
  · rw [List.concat_eq_append] at h
    obtain ⟨t1, t2, rfl, _, h2⟩ := pairs_split h
    match t2, h2 with
    | [y], h2 => intro z hz; simp at hz; subst hz; exact ⟨x, by simp, h2.1⟩

/-- What becomes of a character in the pass for double marks. -/
def Dbl (c d : Char) : Prop := (c ≠ '"' ∧ d = c) ∨ (c = '"' ∧ (d = '"' ∨ d = '“' ∨ d = '”'))

theorem dbl_pairs (f : Bool) (s : List Char) : Pairs Dbl s (stDbl f s) := by
  cases f with
  | false =>
    refine pairs_refl (fun c => ?_) s
    by_cases hc : c = '"'
    · exact .inr ⟨hc, .inl hc⟩
    · exact .inl ⟨hc, rfl⟩
  | true =>
    have key : ∀ (s : List Char) (st : Bool) (p : Option Char), Pairs Dbl s (ctxMap doubleStep st p s) := by
      intro s
      induction s with
      | nil => intro _ _; trivial
      | cons c s ih =>
        intro st p
        refine ⟨?_, ih _ _⟩
        rcases doubleStep_cases st p c s with ⟨hc, h⟩ | ⟨rfl, h | h⟩
        · rw [h]; exact .inl ⟨hc, rfl⟩
        · rw [h]; exact .inr ⟨rfl, by simp⟩
        · rw [h]; exact .inr ⟨rfl, by simp⟩
    exact key s _ _

theorem quotes_only {u : Uni} {o : PunctOpts} {s : List Char} (h : NoDashes o s) :
    transformPunctuation u o s = stApo u o.curlyApostrophes (stSgl u o.curlySingle (stDbl o.curlyDouble s)) := by
  have e1 : stDash o.emDash emDashC s = s := by
    unfold stDash
    split
    · next p e => exact transformDashes_absent _ (h.1 p (.inr e))
    · rfl
  have e2 : stDash o.enDash enDashC s = s := by
    unfold stDash
    split
    · next p e => exact transformDashes_absent _ (h.1 p (.inl e))
    · rfl
  have e3 : stEll o.ellipsis s = s := by
    unfold stEll
    split
    · next e => exact (tE_fixed_iff s).2 (h.2 e)
    · rfl
  rw [transformPunctuation_eq, e1, e2, e3]

theorem double_around (f : Bool) (a b : List Char) : ∃ a' b', stDbl f (a ++ '\'' :: b) = a' ++ '\'' :: b' ∧
    Pairs Dbl a a' ∧ Pairs Dbl b b' := by
  have h := dbl_pairs f (a ++ '\'' :: b)
  generalize stDbl f (a ++ '\'' :: b) = t at h ⊢
  obtain ⟨a', t2, rfl, h1, h2⟩ := pairs_split h
  match t2, h2 with
  | d :: b', h2 =>
    rcases h2.1 with ⟨_, e⟩ | ⟨e, _⟩
    · exact ⟨a', b', by rw [e], h1, h2.2⟩
    · exact absurd e (by decide)

theorem singleStep_state {u : Uni} {st : Bool} {prev : Option Char} {c : Char} {rest : List Char} (h : c ≠ '\'') :
    (singleStep u st prev c rest).2 = st := by
  rw [singleStep, if_neg h]

theorem ctxState_none {u : Uni} : ∀ (a b : List Char) (st : Bool) (prev : Option Char), '\'' ∉ a →
    ctxState (singleStep u) st prev a b = st
  | [], _, _, _, _ => rfl
  | c :: a, b, st, prev, h => by
    rw [ctxState, singleStep_state (fun e => h (by simp [e]))]
    exact ctxState_none a b st _ (fun e => h (by simp [e]))

theorem alphabetic_not {u : Uni} (hu : MarksNoLetters u) {x : Char} (hx : u.alphabetic x = true) :
    isWs x = false ∧ isAsciiPunct x = false ∧ x ∉ ['“', '”', '‘', '’'] := by
  refine ⟨?_, ?_, ?_⟩
  · cases h : isWs x with
    | false => rfl
    | true => rw [hu x (.inl h)] at hx; cases hx
  · cases h : isAsciiPunct x with
    | false => rfl
    | true => rw [hu x (.inr (.inl h))] at hx; cases hx
  · intro h; rw [hu x (.inr (.inr h))] at hx; cases hx

theorem dbl_letter {u : Uni} (hu : MarksNoLetters u) {x y : Char} (h : Dbl x y) : u.alphabetic y = u.alphabetic x := by
  rcases h with ⟨_, rfl⟩ | ⟨rfl, rfl | rfl | rfl⟩
  · rfl
  · rfl
  all_goals rw [hu _ (.inr (.inr (by simp))), hu '"' (.inr (.inl (by decide)))]

theorem dbl_eq {x y : Char} (h : Dbl x y) (hx : x ≠ '"') : y = x := by
  rcases h with ⟨_, rfl⟩ | ⟨e, _⟩
  · rfl
  · exact absurd e hx

theorem pairs_head' {α β : Type} {R : α → β → Prop} : ∀ {s : List α} {t : List β}, Pairs R s t → ∀ x ∈ s.head?, ∃ y ∈ t.head?, R x y
  | [], [], _, y, h => by cases h
  | a :: _, b :: _, h, y, hy => by cases hy; exact ⟨b, rfl, h.1⟩

theorem pairs_last' {α β : Type} {R : α → β → Prop} {s : List α} {t : List β} (h : Pairs R s t) : ∀ x ∈ s.getLast?, ∃ y ∈ t.getLast?, R x y := by
  rcases List.eq_nil_or_concat s with rfl | ⟨s', x, rfl⟩
  · intro y hy; cases hy
  · rw [List.concat_eq_append] at h
    obtain ⟨t1, t2, rfl, _, h2⟩ := pairs_split h
    match t2, h2 with
    | [y], h2 => intro z hz; simp at hz; subst hz; exact ⟨y, by simp, h2.1⟩

theorem possessiveAhead_of {u : Uni} {b : List Char} (h : PossessiveS u b) : possessiveAhead u b = true := by
  obtain ⟨s, b', rfl, hs, hb⟩ := h
  rw [possessiveAhead]
  cases e : b'.head? with
  | none => rcases hs with rfl | rfl <;> simp [e]
  | some c => rcases hs with rfl | rfl <;> simp [e, hb c e]

theorem inWord_dbl {u : Uni} (hu : MarksNoLetters u) {a b a' b' : List Char} (ha : Pairs Dbl a a') (hb : Pairs Dbl b b')
    (h : InWord u a b) : InWord u a' b' := by
  obtain ⟨⟨x, hx, h1⟩, y, hy, h2⟩ := h
  obtain ⟨x', hx', e1⟩ := pairs_last' ha x hx
  obtain ⟨y', hy', e2⟩ := pairs_head' hb y hy
  exact ⟨⟨x', hx', by rw [dbl_letter hu e1, h1]⟩, y', hy', by rw [dbl_letter hu e2, h2]⟩

theorem wordEnd_dbl {u : Uni} (hu : MarksNoLetters u) {a b a' b' : List Char} (ha : Pairs Dbl a a') (hb : Pairs Dbl b b')
    (h : WordEnd u a b) : WordEnd u a' b' := by
  obtain ⟨⟨x, hx, h1⟩, h2⟩ := h
  obtain ⟨x', hx', e1⟩ := pairs_last' ha x hx
  refine ⟨⟨x', hx', by rw [dbl_letter hu e1, h1]⟩, ?_⟩
  intro y' hy'
  obtain ⟨y, hy, e2⟩ := pairs_head hb y' hy'
  have hq : y ≠ '"' := by
    rcases h2 y hy with h | ⟨_, h⟩
    · rintro rfl; exact absurd h (by decide)
    · exact h
  rw [dbl_eq e2 hq]
  exact h2 y hy

theorem possessive_dbl {u : Uni} (hu : MarksNoLetters u) {a b a' b' : List Char} (ha : Pairs Dbl a a') (hb : Pairs Dbl b b')
    (h : Possessive u a b) : Possessive u a' b' := by
  obtain ⟨⟨s, r, rfl, hs, hr⟩, h2⟩ := h
  refine ⟨?_, ?_⟩
  · match b', hb with
    | s' :: r', hb =>
      have e : s' = s := dbl_eq hb.1 (by rcases hs with rfl | rfl <;> decide)
      refine ⟨s', r', rfl, by rw [e]; exact hs, ?_⟩
      intro c hc
      obtain ⟨d, hd, e2⟩ := pairs_head hb.2 c hc
      rw [dbl_letter hu e2]
      exact hr d hd
  · intro x' hx'
    obtain ⟨x, hx, e⟩ := pairs_last ha x' hx'
    have hq : x ≠ '"' := by
      rintro rfl
      rcases h2 _ hx with h | h | h | h | h
      · rw [hu '"' (.inr (.inl (by decide)))] at h; cases h
      all_goals exact absurd h (by decide)
    rw [dbl_eq e hq]
    exact h2 x hx

theorem keeps_inWord {u : Uni} {a b : List Char} (h : InWord u a b) (st : Bool) : singleKeeps u st a.getLast? b = true := by
  obtain ⟨⟨x, hx, h1⟩, y, hy, h2⟩ := h
  have hx : a.getLast? = some x := hx
  have hy : b.head? = some y := hy
  simp [singleKeeps, hx, hy, h1, h2]

theorem keeps_wordEnd {u : Uni} {a b : List Char} (h : WordEnd u a b) : singleKeeps u true a.getLast? b = true := by
  obtain ⟨⟨x, hx, h1⟩, h2⟩ := h
  have hx : a.getLast? = some x := hx
  have : (b.head? = none || b.head?.any fun c => isWs c || isAsciiPunct c) = true := by
    cases e : b.head? with
    | none => rfl
    | some y =>
      rcases h2 y e with h | h
      · simp [h]
      · simp [h.1]
  rw [singleKeeps]
  simp only [hx, Option.any_some, h1, Bool.true_and, this, Bool.or_true, Bool.true_or]

theorem keeps_possessive {u : Uni} {a b : List Char} (h : Possessive u a b) (hs : u.alphabetic 's' = true ∧ u.alphabetic 'S' = true)
    (st : Bool) : singleKeeps u st a.getLast? b = true := by
  have hp := possessiveAhead_of h.1
  obtain ⟨⟨s, b', rfl, hb, _⟩, h2⟩ := h
  have hs' : u.alphabetic s = true := by rcases hb with rfl | rfl; exact hs.1; exact hs.2
  cases e : a.getLast? with
  | none => simp [singleKeeps, hp]
  | some x =>
    rcases h2 x e with h | h | rfl | rfl | rfl
    · simp [singleKeeps, h, hs']
    · simp [singleKeeps, h, hp]
    all_goals simp [singleKeeps, hp]

theorem single_at_kept {u : Uni} {f : Bool} {a b : List Char}
    (h : singleKeeps u (ctxState (singleStep u) true none a ('\'' :: b)) a.getLast? b = true) :
    (stSgl u f (a ++ '\'' :: b))[a.length]? = some '\'' := by
  unfold stSgl
  split
  · rw [transformSingleQuotes, ctxMap_at, singleStep, if_pos rfl, if_pos h]
  · rw [List.getElem?_append_right (by omega), Nat.sub_self]; rfl

/-- The pass for apostrophes makes no opening marks. -/
theorem apo_not_open {u : Uni} {f : Bool} {s : List Char} {i : Nat} (h : s[i]? ≠ some '‘') : (stApo u f s)[i]? ≠ some '‘' := by
  unfold stApo
  split
  · rw [transformApostrophes]
    have key : ∀ (s : List Char) (n : Nat) (p : Option Char) (i : Nat), s[i]? ≠ some '‘' →
        (ctxMap (apostropheStep u) n p s)[i]? ≠ some '‘' := by
      intro s
      induction s with
      | nil => intro n p i _; simp [ctxMap]
      | cons c s ih =>
        intro n p i hi
        rw [ctxMap]
        cases i with
        | zero =>
          simp only [List.getElem?_cons_zero, ne_eq, Option.some.injEq] at hi ⊢
          unfold apostropheStep
          dsimp only
          repeat' split
          all_goals first | exact hi | (show ¬ (rsq = '‘'); decide)
        | succ i =>
          rw [List.getElem?_cons_succ] at hi ⊢
          exact ih _ _ i hi
    exact key s 0 none i h
  · exact h

/-- After a letter, with a letter, a digit, white space, ASCII punctuation or nothing to follow, no mark opens. -/
theorem single_not_open {u : Uni} (hu : MarksNoLetters u) {st : Bool} {x : Char} {b : List Char} (hx : u.alphabetic x = true)
    (hb : ∀ y ∈ b.head?, u.alphabetic y = true ∨ isAsciiDigit y = true ∨ isWs y = true ∨ isAsciiPunct y = true) :
    (singleStep u st (some x) '\'' b).1 ≠ '‘' := by
  obtain ⟨h1, h2, h3⟩ := alphabetic_not hu hx
  have ho : (isWs x || x = '(' || x = '[' || x = '{' || x = ldq || x = lsq) = false := by
    have e : ∀ c, c ∈ ['(', '[', '{'] → x ≠ c := by
      rintro c hc rfl
      simp at hc
      rcases hc with rfl | rfl | rfl <;> exact absurd h2 (by decide)
    have e' : ∀ c, c ∈ ['“', '”', '‘', '’'] → x ≠ c := fun c hc h => h3 (h ▸ hc)
    simp [h1, e '(' (by simp), e '[' (by simp), e '{' (by simp), ldq, lsq, e' '“' (by simp), e' '‘' (by simp)]
  rw [singleStep, if_pos rfl]
  split
  · show '\'' ≠ '‘'; decide
  next hk =>
  split
  · show rsq ≠ '‘'; decide
  next hd =>
  rw [if_neg (by simp [h1])]
  have hn : shouldBeOpening (some x) b.head? st = false := by
    unfold shouldBeOpening
    simp only [ho, Bool.false_and, Bool.false_eq_true, if_false, Bool.not_false, Bool.and_true]
    cases e : b.head? with
    | none => simp
    | some y =>
      cases st with
      | false => simp
      | true =>
        exfalso
        rw [e] at hd
        rcases hb y e with h | h | h
        · exact hk (by simp [singleKeeps, hx, e, h])
        · exact hd (by simpa using h)
        · exact hk (by
            have : (isWs y || isAsciiPunct y) = true := by rcases h with h | h <;> simp [h]
            simp [singleKeeps, hx, e, this])
  rw [hn]
  show rsq ≠ '‘'
  decide

end Hongdown.Model
