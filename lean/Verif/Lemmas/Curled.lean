import Verif.Lemmas.Apostrophe
import Verif.Spec.Curled

namespace Hongdown
open Model Spec

/-- What becomes of a character in the pass for single marks. -/
def Sgl (c d : Char) : Prop := (c ≠ '\'' ∧ d = c) ∨ (c = '\'' ∧ (d = '\'' ∨ d = '‘' ∨ d = '’'))

theorem sgl_pairs (u : Uni) (f : Bool) (s : List Char) : Pairs Sgl s (stSgl u f s) := by
  cases f with
  | false =>
    refine pairs_refl (fun c => ?_) s
    by_cases hc : c = '\''
    · exact .inr ⟨hc, .inl hc⟩
    · exact .inl ⟨hc, rfl⟩
  | true =>
    have key : ∀ (s : List Char) (st : Bool) (p : Option Char), Pairs Sgl s (ctxMap (singleStep u) st p s) := by
      intro s
      induction s with
      | nil => intro _ _; trivial
      | cons c s ih =>
        intro st p
        refine ⟨?_, ih _ _⟩
        by_cases hc : c = '\''
        · subst hc
          refine .inr ⟨rfl, ?_⟩
          unfold singleStep
          repeat' split
          all_goals simp [lsq, rsq]
        · rw [singleStep, if_neg hc]; exact .inl ⟨hc, rfl⟩
    exact key s _ _

theorem single_around {u : Uni} {f : Bool} {a b : List Char} (h : (stSgl u f (a ++ '\'' :: b))[a.length]? = some '\'') :
    ∃ a' b', stSgl u f (a ++ '\'' :: b) = a' ++ '\'' :: b' ∧ Pairs Sgl a a' ∧ Pairs Sgl b b' := by
  have hp := sgl_pairs u f (a ++ '\'' :: b)
  generalize stSgl u f (a ++ '\'' :: b) = t at h hp ⊢
  obtain ⟨a', t2, rfl, h1, h2⟩ := pairs_split hp
  match t2, h2 with
  | d :: b', h2 =>
    rw [pairs_length h1, List.getElem?_append_right (by omega), Nat.sub_self] at h
    have : d = '\'' := by simpa using h
    subst this
    exact ⟨a', b', rfl, h1, h2.2⟩

theorem sgl_letter {u : Uni} (hu : MarksNoLetters u) {x y : Char} (h : Sgl x y) : u.alphabetic y = u.alphabetic x := by
  rcases h with ⟨_, rfl⟩ | ⟨rfl, rfl | rfl | rfl⟩
  · rfl
  · rfl
  all_goals rw [hu _ (.inr (.inr (by simp))), hu '\'' (.inr (.inl (by decide)))]

theorem sgl_eq {x y : Char} (h : Sgl x y) (hx : x ≠ '\'') : y = x := by
  rcases h with ⟨_, rfl⟩ | ⟨e, _⟩
  · rfl
  · exact absurd e hx

theorem inWord_sgl {u : Uni} (hu : MarksNoLetters u) {a b a' b' : List Char} (ha : Pairs Sgl a a') (hb : Pairs Sgl b b')
    (h : InWord u a b) : InWord u a' b' := by
  obtain ⟨⟨x, hx, h1⟩, y, hy, h2⟩ := h
  obtain ⟨x', hx', e1⟩ := pairs_last' ha x hx
  obtain ⟨y', hy', e2⟩ := pairs_head' hb y hy
  exact ⟨⟨x', hx', by rw [sgl_letter hu e1, h1]⟩, y', hy', by rw [sgl_letter hu e2, h2]⟩

theorem possessive_sgl {u : Uni} (hu : MarksNoLetters u) {a b a' b' : List Char} (ha : Pairs Sgl a a') (hb : Pairs Sgl b b')
    (h : Possessive u a b) : Possessive u a' b' := by
  obtain ⟨⟨s, r, rfl, hs, hr⟩, h2⟩ := h
  refine ⟨?_, ?_⟩
  · match b', hb with
    | s' :: r', hb =>
      have : s' = s := sgl_eq hb.1 (by rcases hs with rfl | rfl <;> decide)
      subst this
      refine ⟨_, r', rfl, hs, fun c hc => ?_⟩
      obtain ⟨d, hd, e⟩ := pairs_head hb.2 c hc
      rw [sgl_letter hu e, hr d hd]
  · intro x' hx'
    obtain ⟨x, hx, e⟩ := pairs_last ha x' hx'
    have h := h2 x hx
    by_cases hq : x = '\''
    · subst hq
      rcases h with h | h | h | h | h
      · rw [hu '\'' (.inr (.inl (by decide)))] at h; cases h
      all_goals exact absurd h (by decide)
    · rw [sgl_eq e hq]; exact h

theorem spaceEnd_of {u : Uni} {a b a' b' : List Char} {R : Char → Char → Prop} (hR : ∀ x y, R x y → u.alphabetic y = u.alphabetic x)
    (hW : ∀ x y, R x y → isWs x = true → isWs y = true) (ha : Pairs R a a') (hb : Pairs R b b')
    (h : SpaceEnd u a b) : SpaceEnd u a' b' := by
  obtain ⟨⟨x, hx, h1⟩, h2⟩ := h
  obtain ⟨x', hx', e1⟩ := pairs_last' ha x hx
  refine ⟨⟨x', hx', by rw [hR _ _ e1, h1]⟩, fun y' hy' => ?_⟩
  obtain ⟨y, hy, e⟩ := pairs_head hb y' hy'
  exact hW _ _ e (h2 y hy)

theorem dbl_ws {x y : Char} (h : Dbl x y) (hx : isWs x = true) : isWs y = true := by
  rw [dbl_eq h (by rintro rfl; exact absurd hx (by decide))]; exact hx

theorem sgl_ws {x y : Char} (h : Sgl x y) (hx : isWs x = true) : isWs y = true := by
  rw [sgl_eq h (by rintro rfl; exact absurd hx (by decide))]; exact hx

theorem apoState_none {u : Uni} : ∀ (a b : List Char) (n : Nat) (prev : Option Char), '\'' ∉ a →
    ctxState (apostropheStep u) n prev a b = n
  | [], _, _, _, _ => rfl
  | c :: a, b, n, prev, h => by
    have e : (apostropheStep u n prev c (a ++ b)).2 = n := by rw [apostropheStep, if_neg (fun e => h (by simp [e]))]
    rw [ctxState, e]
    exact apoState_none a b n _ (fun e => h (by simp [e]))

theorem apo_inWord {u : Uni} (hn : AlnumOk u) {a b : List Char} (h : InWord u a b) :
    (stApo u true (a ++ '\'' :: b))[a.length]? = some '’' := by
  obtain ⟨⟨x, hx, h1⟩, y, hy, h2⟩ := h
  have hx : a.getLast? = some x := hx
  have hy : b.head? = some y := hy
  rw [stApo, if_pos rfl, transformApostrophes, ctxMap_at, hx]
  simp [apostropheStep, hy, hn.letter x (.inl h1), hn.letter y (.inl h2), rsq]

theorem apo_possessive {u : Uni} (hn : AlnumOk u) {a b : List Char} (h : Possessive u a b) :
    (stApo u true (a ++ '\'' :: b))[a.length]? = some '’' := by
  have hp := possessiveAhead_of h.1
  rw [stApo, if_pos rfl, transformApostrophes, ctxMap_at]
  generalize ctxState (apostropheStep u) 0 none a ('\'' :: b) = n
  cases e : a.getLast? with
  | none => simp [apostropheStep, hp, rsq]
  | some x =>
    rcases h.2 x e with h | h | rfl | rfl | rfl
    · simp [apostropheStep, hn.letter x (.inl h), hp, rsq]
    · simp [apostropheStep, hn.letter x (.inr h), hp, rsq]
    all_goals simp [apostropheStep, hp, rsq]

theorem apo_spaceEnd {u : Uni} (hn : AlnumOk u) {a b : List Char} (h : SpaceEnd u a b) (hq : '\'' ∉ a) :
    (stApo u true (a ++ '\'' :: b))[a.length]? = some '’' := by
  obtain ⟨⟨x, hx, h1⟩, h2⟩ := h
  have hx : a.getLast? = some x := hx
  rw [stApo, if_pos rfl, transformApostrophes, ctxMap_at, hx, apoState_none _ _ _ _ hq]
  have hb : b = [] ∨ b.head?.any isWs = true := by
    cases e : b.head? with
    | none => exact .inl (by simpa using e)
    | some y => exact .inr (by simpa using h2 y e)
  have hna : (b.head?.any u.alphanumeric) = false := by
    cases e : b.head? with
    | none => rfl
    | some z => simpa using hn.other z (.inl (h2 z e))
  simp only [apostropheStep, hn.letter x (.inl h1), hna, rsq, Option.any_some]
  simp only [Bool.and_false, Bool.false_eq_true, if_false, if_true]
  simp [hb]
  repeat' split
  all_goals rfl

theorem possessiveAhead_iff {u : Uni} {b : List Char} (h : possessiveAhead u b = true) : PossessiveS u b := by
  cases b with
  | nil => simp [possessiveAhead] at h
  | cons s b =>
    rw [possessiveAhead, Bool.and_eq_true] at h
    refine ⟨s, b, rfl, by simpa using h.1, fun c hc => ?_⟩
    have hc : b.head? = some c := hc
    simpa [hc] using h.2

theorem apo_quoted {u : Uni} (hn : AlnumOk u) {a w b : List Char} (h : SingleQuoted u a w b) (ha : '\'' ∉ a) (hw : '\'' ∉ w) :
    (stApo u true (a ++ '\'' :: (w ++ '\'' :: b)))[a.length]? = some '\'' ∧
      (stApo u true (a ++ '\'' :: (w ++ '\'' :: b)))[a.length + 1 + w.length]? = some '\'' := by
  obtain ⟨y, hy, hy1⟩ := h.first
  obtain ⟨x, hx, hx1⟩ := h.last
  have hy : w.head? = some y := hy
  have hx : w.getLast? = some x := hx
  have hh : (w ++ '\'' :: b).head? = some y := by
    cases w with
    | nil => cases hy
    | cons c w => exact hy
  have hstep : apostropheStep u 0 a.getLast? '\'' (w ++ '\'' :: b) = ('\'', 1) := by
    cases e : a.getLast? with
    | none =>
      have ha0 : a = [] := by simpa using e
      have : possessiveAhead u (w ++ '\'' :: b) = false := by
        cases e : possessiveAhead u (w ++ '\'' :: b) with
        | false => rfl
        | true => exact absurd (possessiveAhead_iff e) (h.noS ha0)
      simp [apostropheStep, this, hh, hy1]
    | some z =>
      have hz := h.before z e
      have hz1 := hn.other z (.inl hz)
      have hb : (z = ']' || z = ')' || z = '}') = false := by
        have : ∀ d, isWs d = false → z ≠ d := by rintro d hd rfl; rw [hz] at hd; cases hd
        simp [this ']' (by decide), this ')' (by decide), this '}' (by decide)]
      unfold apostropheStep
      simp only [Option.any_some, hz1, hb, hh, hy1, hz]
      simp
  constructor
  · rw [stApo, if_pos rfl, transformApostrophes, ctxMap_at, apoState_none _ _ _ _ ha, hstep]
  · have e : a ++ '\'' :: (w ++ '\'' :: b) = (a ++ '\'' :: w) ++ '\'' :: b := by simp
    have hl : a.length + 1 + w.length = (a ++ '\'' :: w).length := by simp; omega
    have hg : (a ++ '\'' :: w).getLast? = some x := by
      rw [List.getLast?_append, List.getLast?_cons, hx]; rfl
    rw [stApo, if_pos rfl, transformApostrophes, e, hl, ctxMap_at, ctxState_append, List.cons_append,
      apoState_none a _ 0 none ha, hg, ctxState]
    rw [show a.getLast?.or none = a.getLast? by simp, hstep, apoState_none _ _ _ _ hw]
    have h1 : (b.head?.any u.alphanumeric) = false := by
      cases e : b.head? with
      | none => rfl
      | some z => simpa using hn.other z (.inl (h.after z e))
    have h2 : possessiveAhead u b = false := by
      cases e : b.head? with
      | none => simp [possessiveAhead, e]
      | some z =>
        have hz := h.after z e
        have : ∀ d, isWs d = false → z ≠ d := by rintro d hd rfl; rw [hz] at hd; cases hd
        simp [possessiveAhead, e, this 's' (by decide), this 'S' (by decide)]
    simp [apostropheStep, h1, h2, hx1]
    split <;> rfl

end Hongdown
