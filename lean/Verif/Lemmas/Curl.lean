import Verif.Spec.Heading
import Verif.Lemmas.Str

/-!
# Quotation marks in headings
-/

namespace Hongdown
open Model Spec

theorem opens_iff (u : Uni) (x y : List Char) : isHeadingOpening u x.getLast? y = true ↔ Opens u x y := by
  unfold isHeadingOpening Opens
  simp only [Bool.and_eq_true, Option.any_eq_true]
  apply and_congr
  · cases h : x.getLast? with
    | none => simp [List.getLast?_eq_none_iff.1 h]
    | some c =>
      have : x ≠ [] := by rintro rfl; simp at h
      simp [this]
      exact or_assoc
  · exact Iff.rfl

theorem apostrophe_iff (u : Uni) (opened : Bool) (q : Prop) (hq : opened = true ↔ q) (x y : List Char) :
    isHeadingApostrophe u opened x.getLast? y = true ↔ IsApostrophe u q x y := by
  unfold isHeadingApostrophe IsApostrophe
  rw [Bool.or_eq_true]
  apply or_congr
  · constructor
    · intro h
      split at h
      · rename_i d1 d2 rest
        simp only [Bool.and_eq_true, Bool.not_eq_true'] at h
        refine ⟨d1, d2, rest, rfl, h.1.1, h.1.2, ?_⟩
        intro c hc
        simpa [hc] using h.2
      · cases h
    · rintro ⟨d, e, rest, rfl, h1, h2, h3⟩
      simp only [h1, h2, Bool.true_and, Bool.not_eq_true']
      cases h : x.getLast? with
      | none => rfl
      | some c => exact h3 c h
  · rw [Bool.and_eq_true, Option.any_eq_true]
    apply and_congr Iff.rfl
    rw [Bool.or_eq_true, Bool.or_eq_true]
    constructor
    · rintro ((h | h) | h)
      · obtain ⟨c, h1, h2⟩ := (Option.any_eq_true _ _).1 h
        exact .inl ⟨c, h1, .inl h2⟩
      · right
        split at h
        · exact ⟨[], rfl, by simp⟩
        · rename_i c rest
          refine ⟨c :: rest, rfl, ?_⟩
          intro d hd
          simp only [List.head?_cons, Option.some.injEq] at hd
          subst hd
          simpa using h
        · cases h
      · simp only [Bool.and_eq_true, Bool.not_eq_true'] at h
        obtain ⟨c, h1, h2⟩ := (Option.any_eq_true _ _).1 h.1
        refine .inl ⟨c, h1, .inr ⟨h2, ?_⟩⟩
        rw [← hq, h.2]; simp
    · rintro (⟨c, h1, h2 | ⟨h2, h3⟩⟩ | ⟨rest, rfl, h⟩)
      · exact .inl (.inl ((Option.any_eq_true _ _).2 ⟨c, h1, h2⟩))
      · right
        rw [← hq] at h3
        simp [h1, h2, h3]
      · left; right
        cases rest with
        | nil => rfl
        | cons c rest => simpa using h c rfl

theorem inSingle_nil : ¬ InSingle [] := by
  rintro ⟨a, b, h, _⟩
  simp at h

theorem inSingle_snoc (z : List (Char × Char)) (c d : Char) : InSingle (z ++ [(c, d)]) ↔
    (c = '\'' ∧ d = '‘') ∨ (InSingle z ∧ ¬ (c = '\'' ∧ d = '’')) := by
  constructor
  · rintro ⟨a, b, h, hb⟩
    rcases List.eq_nil_or_concat b with rfl | ⟨b, e, rfl⟩
    · have := List.append_inj' h rfl
      simp only [List.cons.injEq, Prod.mk.injEq, and_true] at this
      exact .inl this.2
    · have h' : z ++ [(c, d)] = (a ++ ('\'', '‘') :: b) ++ [e] := by simpa using h
      have := List.append_inj' h' rfl
      right
      simp only [List.concat_eq_append, List.mem_append, List.mem_singleton, not_or] at hb
      refine ⟨⟨a, b, this.1, hb.1⟩, ?_⟩
      rintro ⟨rfl, rfl⟩
      simp only [List.cons.injEq, and_true] at this
      exact hb.2 this.2
  · rintro (⟨rfl, rfl⟩ | ⟨⟨a, b, rfl, hb⟩, h⟩)
    · exact ⟨z, [], rfl, by simp⟩
    · refine ⟨a, b ++ [(c, d)], by simp, ?_⟩
      simp only [List.mem_append, List.mem_singleton, Prod.mk.injEq, not_or]
      exact ⟨hb, fun e => h ⟨e.1.symm, e.2.symm⟩⟩

theorem normQuotes_marks (u : Uni) : ∀ (s : List Char) (opened : Bool) (pre : List (Char × Char)), (opened = true ↔ InSingle pre) →
    (normQuotes u opened (pre.map (·.1)).getLast? s).length = s.length ∧
    ∀ z c d r, s.zip (normQuotes u opened (pre.map (·.1)).getLast? s) = z ++ (c, d) :: r → Mark u (pre ++ z) c (r.map (·.1)) d
  | [], _, _, _ => ⟨rfl, fun z c d r h => by simp [normQuotes] at h⟩
  | c :: s, opened, pre, ho => by
    have hop := opens_iff u (pre.map (·.1)) s
    have hap := apostrophe_iff u opened (InSingle pre) ho (pre.map (·.1)) s
    have step : ∀ (d : Char) (o : Bool), (o = true ↔ InSingle (pre ++ [(c, d)])) → Mark u pre c s d →
        normQuotes u opened (pre.map (·.1)).getLast? (c :: s) = d :: normQuotes u o (some c) s →
        (normQuotes u opened (pre.map (·.1)).getLast? (c :: s)).length = (c :: s).length ∧
        ∀ z c' d' r, (c :: s).zip (normQuotes u opened (pre.map (·.1)).getLast? (c :: s)) = z ++ (c', d') :: r →
          Mark u (pre ++ z) c' (r.map (·.1)) d' := by
      intro d o h1 h2 h3
      have ih := normQuotes_marks u s o (pre ++ [(c, d)]) h1
      have e : ((pre ++ [(c, d)]).map (·.1)).getLast? = some c := by simp
      rw [e] at ih
      rw [h3]
      refine ⟨by simp [ih.1], ?_⟩
      intro z c' d' r h
      rw [List.zip_cons_cons] at h
      cases z with
      | nil =>
        simp only [List.nil_append, List.cons.injEq, Prod.mk.injEq] at h
        obtain ⟨⟨rfl, rfl⟩, rfl⟩ := h
        rw [List.append_nil, List.map_fst_zip (by omega)]
        exact h2
      | cons y z =>
        simp only [List.cons_append, List.cons.injEq] at h
        obtain ⟨rfl, h⟩ := h
        have := ih.2 z c' d' r h
        simpa using this
    by_cases hs : c = '\''
    · by_cases ha : isHeadingApostrophe u opened (pre.map (·.1)).getLast? s = true
      · refine step '\'' opened ?_ ?_ (by rw [normQuotes, if_pos hs, if_pos ha, hs])
        · rw [inSingle_snoc, ho]; simp
        · have := hap.1 ha
          simp [Mark, hs, this]
      by_cases hp : isHeadingOpening u (pre.map (·.1)).getLast? s = true
      · refine step '‘' true ?_ ?_ (by rw [normQuotes, if_pos hs, if_neg ha, if_pos hp, hs])
        · rw [inSingle_snoc]; simp [hs]
        · rw [hap] at ha
          rw [hop] at hp
          simp [Mark, hs, ha, hp]
      · refine step '’' false ?_ ?_ (by rw [normQuotes, if_pos hs, if_neg ha, if_neg hp, hs])
        · rw [inSingle_snoc]; simp [hs]
        · rw [hap] at ha
          rw [hop] at hp
          simp [Mark, hs, ha, hp]
    by_cases hd : c = '"'
    · by_cases hp : isHeadingOpening u (pre.map (·.1)).getLast? s = true
      · refine step '“' opened ?_ ?_ (by rw [normQuotes, if_neg hs, if_pos hd, if_pos hp])
        · rw [inSingle_snoc, ho]; simp [hs]
        · rw [hop] at hp
          simp [Mark, hd, hp]
      · refine step '”' opened ?_ ?_ (by rw [normQuotes, if_neg hs, if_pos hd, if_neg hp])
        · rw [inSingle_snoc, ho]; simp [hs]
        · rw [hop] at hp
          simp [Mark, hd, hp]
    · refine step c opened ?_ ?_ (by rw [normQuotes, if_neg hs, if_neg hd])
      · rw [inSingle_snoc, ho]; simp [hs]
      · simp [Mark, hs, hd]

theorem normQuotes_curled (u : Uni) (s : List Char) : Curled u s (normQuotes u false none s) := by
  have := normQuotes_marks u s false [] (by simp [inSingle_nil])
  exact ⟨this.1, fun z c d r h => by simpa using this.2 z c d r h⟩

end Hongdown
