import Verif.Lemmas.Dashes

namespace Hongdown
open Model Spec

/-! ## The shared loop -/

theorem ctxMap_length {σ} (f : σ → Option Char → Char → List Char → Char × σ) (s : List Char) :
    ∀ st prev, (ctxMap f st prev s).length = s.length := by
  induction s with
  | nil => intro st prev; rfl
  | cons c cs ih => intro st prev; simp [ctxMap, ih]

theorem ctxMap_zip {σ} (f : σ → Option Char → Char → List Char → Char × σ) (R : Char → Char → Prop)
    (hR : ∀ st prev c rest, R c (f st prev c rest).1) (s : List Char) :
    ∀ st prev, ∀ p ∈ s.zip (ctxMap f st prev s), R p.1 p.2 := by
  induction s with
  | nil => intro st prev p hp; simp at hp
  | cons c cs ih =>
    intro st prev p hp
    rw [ctxMap, List.zip_cons_cons] at hp
    rcases List.mem_cons.mp hp with rfl | hp
    · exact hR _ _ _ _
    · exact ih _ _ p hp

theorem ctxMap_fold {σ} (f : σ → Option Char → Char → List Char → Char × σ)
    (en em : Option (List Char))
    (hR : ∀ st prev c rest, foldChar en em (f st prev c rest).1 = foldChar en em c) (s : List Char) :
    ∀ st prev, fold en em (ctxMap f st prev s) = fold en em s := by
  induction s with
  | nil => intro st prev; rfl
  | cons c cs ih => intro st prev; rw [ctxMap, fold_cons, fold_cons, ih, hR]

theorem ctxMap_id {σ} (f : σ → Option Char → Char → List Char → Char × σ) (s : List Char)
    (h : ∀ st prev c rest, c ∈ s → (f st prev c rest).1 = c) :
    ∀ st prev, ctxMap f st prev s = s := by
  induction s with
  | nil => intro st prev; rfl
  | cons c cs ih =>
    intro st prev
    rw [ctxMap, h _ _ _ _ (by simp), ih (fun st prev d rest hd => h st prev d rest (by simp [hd]))]

theorem ctxMap_mem {σ} (f : σ → Option Char → Char → List Char → Char × σ) (s : List Char) :
    ∀ st prev d, d ∈ ctxMap f st prev s → ∃ st prev c rest, c ∈ s ∧ d = (f st prev c rest).1 := by
  induction s with
  | nil => intro st prev d h; simp [ctxMap] at h
  | cons c cs ih =>
    intro st prev d h
    rw [ctxMap] at h
    rcases List.mem_cons.mp h with h | h
    · exact ⟨_, _, _, _, by simp, h⟩
    · obtain ⟨st', p', c', r', hc, hd⟩ := ih _ _ _ h
      exact ⟨st', p', c', r', by simp [hc], hd⟩

/-! ## Single steps -/

theorem doubleStep_cases (e : Bool) (prev : Option Char) (c : Char) (rest : List Char) :
    (c ≠ '"' ∧ doubleStep e prev c rest = (c, e)) ∨
    (c = '"' ∧ (doubleStep e prev c rest = ('“', false) ∨ doubleStep e prev c rest = ('”', true))) := by
  unfold doubleStep
  by_cases hc : c = '"'
  · simp only [hc, if_true, true_and, ne_eq, not_true_eq_false, false_and, false_or]
    split
    · exact Or.inl rfl
    · exact Or.inr rfl
  · simp [hc]

theorem singleStep_cases (u : Uni) (e : Bool) (prev : Option Char) (c : Char) (rest : List Char) :
    (c ≠ '\'' ∧ singleStep u e prev c rest = (c, e)) ∨
    (c = '\'' ∧ singleKeeps u e prev rest = true ∧ singleStep u e prev c rest = ('\'', e)) ∨
    (c = '\'' ∧ singleKeeps u e prev rest = false ∧
      ((singleStep u e prev c rest).1 = '‘' ∨ (singleStep u e prev c rest).1 = '’')) := by
  unfold singleStep
  by_cases hc : c = '\''
  · subst hc
    simp only [if_true, ne_eq, not_true_eq_false, false_and, true_and, false_or]
    cases hk : singleKeeps u e prev rest
    · refine Or.inr ⟨rfl, ?_⟩
      simp only [Bool.false_eq_true, if_false]
      repeat' split
      all_goals simp [lsq, rsq]
    · exact Or.inl ⟨rfl, by simp⟩
  · simp [hc]

theorem apostropheStep_cases (u : Uni) (n : Nat) (prev : Option Char) (c : Char) (rest : List Char) :
    (c ≠ '\'' ∧ apostropheStep u n prev c rest = (c, n)) ∨
    (c = '\'' ∧ (apostropheStep u n prev c rest).1 = '\'') ∨
    (c = '\'' ∧ apostropheStep u n prev c rest = ('’', n)) := by
  unfold apostropheStep
  by_cases hc : c = '\''
  · subst hc
    simp only [if_true]
    repeat' split
    all_goals simp [rsq]
  · simp [hc]

/-! ## Folding -/

theorem doubleStep_fold (en em : Option (List Char)) (e prev c rest) :
    foldChar en em (doubleStep e prev c rest).1 = foldChar en em c := by
  rcases doubleStep_cases e prev c rest with ⟨_, h⟩ | ⟨rfl, h | h⟩ <;> rw [h] <;> simp [foldChar]

theorem singleStep_fold (u : Uni) (en em : Option (List Char)) (e prev c rest) :
    foldChar en em (singleStep u e prev c rest).1 = foldChar en em c := by
  rcases singleStep_cases u e prev c rest with ⟨_, h⟩ | ⟨rfl, _, h⟩ | ⟨rfl, _, h | h⟩ <;>
    rw [h] <;> simp [foldChar]

theorem apostropheStep_fold (u : Uni) (en em : Option (List Char)) (e prev c rest) :
    foldChar en em (apostropheStep u e prev c rest).1 = foldChar en em c := by
  rcases apostropheStep_cases u e prev c rest with ⟨_, h⟩ | ⟨rfl, h⟩ | ⟨rfl, h⟩ <;>
    rw [h] <;> simp [foldChar]

/-! ## Apostrophes are stable -/

/-- `b` is `a` or a curled version of it. -/
def sameQ (a b : Option Char) : Prop := a = b ∨ (a = some '\'' ∧ b = some '’')

theorem sameQ_any {a b : Option Char} (h : sameQ a b) (p : Char → Bool)
    (hp : p '\'' = p '’') : a.any p = b.any p := by
  rcases h with rfl | ⟨rfl, rfl⟩
  · rfl
  · simpa using hp

theorem sameQ_eq {a b : Option Char} (h : sameQ a b) (x : Option Char) (h1 : x ≠ some '\'')
    (h2 : x ≠ some '’') : decide (a = x) = decide (b = x) := by
  rcases h with rfl | ⟨rfl, rfl⟩
  · rfl
  · simp [Ne.symm h1, Ne.symm h2]

theorem possessiveAhead_congr (u : Uni) (hu : u.QuotesOk) {r r' : List Char}
    (h1 : sameQ r.head? r'.head?) (h2 : sameQ r.tail.head? r'.tail.head?) :
    possessiveAhead u r = possessiveAhead u r' := by
  unfold possessiveAhead
  rw [sameQ_eq h1 (some 's') (by decide) (by decide), sameQ_eq h1 (some 'S') (by decide) (by decide)]
  congr 1
  rcases h2 with h2 | ⟨h2, h2'⟩
  · rw [h2]
  · rw [h2, h2']
    simp [hu.alpha '\'' (by simp), hu.alpha '’' (by simp)]

theorem apostropheStep_congr (u : Uni) (hu : u.QuotesOk) (n : Nat) {p p' : Option Char}
    {r r' : List Char} (hp : sameQ p p') (h1 : sameQ r.head? r'.head?)
    (h2 : sameQ r.tail.head? r'.tail.head?) :
    apostropheStep u n p '\'' r = apostropheStep u n p' '\'' r' := by
  unfold apostropheStep
  have ha : u.alphanumeric '\'' = u.alphanumeric '’' := by
    rw [hu.alnum '\'' (by simp), hu.alnum '’' (by simp)]
  rw [possessiveAhead_congr u hu h1 h2, sameQ_any hp _ ha, sameQ_any h1 _ ha,
    sameQ_any hp isWs (by decide), sameQ_any h1 isWs (by decide),
    sameQ_eq hp none (by simp) (by simp), sameQ_eq h1 none (by simp) (by simp),
    sameQ_any hp (fun c => decide (c = ']') || decide (c = ')') || decide (c = '}')) (by decide)]

theorem apostropheStep_sameQ (u : Uni) (n prev c rest) :
    sameQ (some c) (some (apostropheStep u n prev c rest).1) := by
  rcases apostropheStep_cases u n prev c rest with ⟨_, h⟩ | ⟨rfl, h⟩ | ⟨rfl, h⟩ <;> rw [h]
  · exact Or.inl rfl
  · exact Or.inl rfl
  · exact Or.inr ⟨rfl, rfl⟩

theorem ctxMap_apostrophe_head (u : Uni) (n prev) (s : List Char) :
    sameQ s.head? (ctxMap (apostropheStep u) n prev s).head? ∧
    sameQ s.tail.head? (ctxMap (apostropheStep u) n prev s).tail.head? := by
  cases s with
  | nil => exact ⟨Or.inl rfl, Or.inl rfl⟩
  | cons c cs =>
    refine ⟨apostropheStep_sameQ u _ _ _ _, ?_⟩
    cases cs with
    | nil => exact Or.inl rfl
    | cons d ds => exact apostropheStep_sameQ u _ _ _ _

theorem apostrophes_idem (u : Uni) (hu : u.QuotesOk) (s : List Char) :
    ∀ n prev prev', sameQ prev prev' →
      ctxMap (apostropheStep u) n prev' (ctxMap (apostropheStep u) n prev s) =
        ctxMap (apostropheStep u) n prev s := by
  induction s with
  | nil => intro n prev prev' _; rfl
  | cons c cs ih =>
    intro n prev prev' hp
    obtain ⟨h1, h2⟩ := ctxMap_apostrophe_head u (apostropheStep u n prev c cs).2 (some c) cs
    rw [ctxMap, ctxMap]
    rcases apostropheStep_cases u n prev c cs with ⟨hc, h⟩ | ⟨rfl, h⟩ | ⟨rfl, h⟩
    · rw [h]
      have : ∀ rest, apostropheStep u n prev' c rest = (c, n) := by
        intro rest; simp [apostropheStep, hc]
      rw [this]
      simp only
      rw [ih _ _ _ (Or.inl rfl)]
    · rw [h]
      rw [← apostropheStep_congr u hu n hp h1 h2, h, ih _ _ _ (Or.inl rfl)]
    · rw [h] at h1 h2 ⊢
      have : ∀ rest, apostropheStep u n prev' '’' rest = ('’', n) := by
        intro rest; simp [apostropheStep]
      simp only at *
      rw [this, ih _ _ _ (Or.inr ⟨rfl, rfl⟩)]

/-! ## Single quotes are stable when no two straight quotes are adjacent -/

/-- `z` is obtained from `t` by curling some straight quotes. -/
inductive Curled : List Char → List Char → Prop
  | nil : Curled [] []
  | keep {c t z} : Curled t z → Curled (c :: t) (c :: z)
  | curl {t z} : Curled t z → Curled ('\'' :: t) ('’' :: z)

theorem Curled.refl : ∀ t, Curled t t
  | [] => .nil
  | _ :: t => .keep (Curled.refl t)

theorem ctxMap_apostrophe_curled (u : Uni) (s : List Char) :
    ∀ n prev, Curled s (ctxMap (apostropheStep u) n prev s) := by
  induction s with
  | nil => intro n prev; exact .nil
  | cons c cs ih =>
    intro n prev
    rw [ctxMap]
    rcases apostropheStep_cases u n prev c cs with ⟨_, h⟩ | ⟨rfl, h⟩ | ⟨rfl, h⟩ <;> rw [h]
    · exact .keep (ih _ _)
    · exact .keep (ih _ _)
    · exact .curl (ih _ _)

/-- No two adjacent straight single quotes, `prev` being the character before. -/
def noAdj (prev : Option Char) : List Char → Prop
  | [] => True
  | c :: cs => (c = '\'' → prev ≠ some '\'') ∧ noAdj (some c) cs

theorem noAdj_of_not_infix (s : List Char) : ∀ prev, ¬ ['\'', '\''] <:+: s →
    (s.head? = some '\'' → prev ≠ some '\'') → noAdj prev s := by
  induction s with
  | nil => intro prev _ _; trivial
  | cons c cs ih =>
    intro prev h hp
    refine ⟨fun hc => hp (by simp [hc]), ih _ (fun hh => h (hh.trans (List.suffix_cons c cs).isInfix)) ?_⟩
    intro hd hc
    cases cs with
    | nil => simp at hd
    | cons d ds =>
      simp only [List.head?_cons, Option.some.injEq] at hd hc
      subst hd hc
      exact h ⟨[], ds, by simp⟩

theorem singleKeeps_mono (u : Uni) (hu : u.QuotesOk) (e : Bool) (prev : Option Char)
    {r r' : List Char} (h1 : r.head? = r'.head?)
    (h2 : r.tail.head? = r'.tail.head? ∨
      (r.tail.head? = some '\'' ∧ (r'.tail.head? = some '‘' ∨ r'.tail.head? = some '’')))
    (hk : singleKeeps u e prev r = true) : singleKeeps u true prev r' = true := by
  have hposs : possessiveAhead u r = possessiveAhead u r' := by
    unfold possessiveAhead
    rw [h1]
    congr 1
    rcases h2 with h2 | ⟨h2, h2' | h2'⟩
    · rw [h2]
    · rw [h2, h2']; simp [hu.alpha '\'' (by simp), hu.alpha '‘' (by simp)]
    · rw [h2, h2']; simp [hu.alpha '\'' (by simp), hu.alpha '’' (by simp)]
  unfold singleKeeps at hk ⊢
  rw [h1, hposs] at hk
  cases e
  · simp only [Bool.false_and, Bool.or_false] at hk
    simp only [Bool.or_eq_true, Bool.true_and] at hk ⊢
    rcases hk with (((hk | hk) | hk) | hk)
    · exact Or.inl (Or.inl (Or.inl (Or.inl hk)))
    · exact Or.inl (Or.inl (Or.inr hk))
    · exact Or.inl (Or.inr hk)
    · exact Or.inr hk
  · exact hk

theorem singleStep_other (u : Uni) {c : Char} (hc : c ≠ '\'') (e prev rest) :
    singleStep u e prev c rest = (c, e) := by simp [singleStep, hc]

/-- First characters of the result of the single quote pass and of a curled version. -/
theorem single_head (u : Uni) (e prev) (s z : List Char)
    (hz : Curled (ctxMap (singleStep u) e prev s) z) :
    s.head? = z.head? ∨ (s.head? = some '\'' ∧
      (z.head? = some '\'' ∨ z.head? = some '‘' ∨ z.head? = some '’')) := by
  cases s with
  | nil => cases hz; exact Or.inl rfl
  | cons c cs =>
    rw [ctxMap] at hz
    rcases singleStep_cases u e prev c cs with ⟨hc, h⟩ | ⟨rfl, _, h⟩ | ⟨rfl, _, h | h⟩ <;> rw [h] at hz
    · generalize ctxMap (singleStep u) (c, e).2 (some c) cs = t at hz
      cases hz with
      | keep hz => exact Or.inl rfl
      | curl hz => exact absurd rfl hc
    · cases hz with
      | keep hz => exact Or.inl rfl
      | curl hz => exact Or.inr ⟨rfl, Or.inr (Or.inr rfl)⟩
    · cases hz with
      | keep hz => exact Or.inr ⟨rfl, Or.inr (Or.inl rfl)⟩
    · cases hz with
      | keep hz => exact Or.inr ⟨rfl, Or.inr (Or.inr rfl)⟩

theorem single_stable (u : Uni) (hu : u.QuotesOk) (s : List Char) :
    ∀ e prev prev' z, noAdj prev s → (prev = prev' ∨ prev = some '\'') →
      Curled (ctxMap (singleStep u) e prev s) z → ctxMap (singleStep u) true prev' z = z := by
  induction s with
  | nil => intro e prev prev' z _ _ hz; cases hz; rfl
  | cons c cs ih =>
    intro e prev prev' z hadj hprev hz
    obtain ⟨ha, hadj'⟩ := hadj
    rw [ctxMap] at hz
    rcases singleStep_cases u e prev c cs with ⟨hc, h⟩ | ⟨rfl, hk, h⟩ | ⟨rfl, _, h⟩
    · rw [h] at hz
      simp only at hz
      have : ∃ z', z = c :: z' ∧ Curled (ctxMap (singleStep u) e (some c) cs) z' := by
        generalize ctxMap (singleStep u) e (some c) cs = t at hz
        cases hz with
        | keep hz => exact ⟨_, rfl, hz⟩
        | curl hz => exact absurd rfl hc
      obtain ⟨z', rfl, hz'⟩ := this
      rw [ctxMap, singleStep_other u hc, ih _ _ _ _ hadj' (Or.inl rfl) hz']
    · rw [h] at hz
      simp only at hz
      have hpp : prev = prev' := hprev.resolve_right (ha rfl)
      cases hz with
      | @keep _ _ z' hz' =>
        -- still kept in the second pass
        have hh : cs.head? = z'.head? := by
          rcases single_head u _ _ cs z' hz' with hh | ⟨hh, _⟩
          · exact hh
          · exfalso
            cases cs with
            | nil => simp at hh
            | cons d ds =>
              simp only [List.head?_cons, Option.some.injEq] at hh
              subst hh
              exact hadj'.1 rfl rfl
        have ht : cs.tail.head? = z'.tail.head? ∨
            (cs.tail.head? = some '\'' ∧ (z'.tail.head? = some '‘' ∨ z'.tail.head? = some '’')) := by
          cases cs with
          | nil => cases hz'; exact Or.inl rfl
          | cons d ds =>
            rw [ctxMap] at hz'
            have : ∃ y z'', z' = y :: z'' ∧
                Curled (ctxMap (singleStep u) (singleStep u e (some '\'') d ds).2 (some d) ds) z'' := by
              generalize (singleStep u e (some '\'') d ds).1 = x at hz'
              generalize ctxMap (singleStep u) _ (some d) ds = t at hz' ⊢
              cases hz' with
              | keep hz => exact ⟨_, _, rfl, hz⟩
              | curl hz => exact ⟨_, _, rfl, hz⟩
            obtain ⟨y, z'', rfl, hz''⟩ := this
            rcases single_head u _ _ ds z'' hz'' with hh | ⟨hh, hh' | hh' | hh'⟩
            · exact Or.inl hh
            · exact Or.inl (hh.trans hh'.symm)
            · exact Or.inr ⟨hh, Or.inl hh'⟩
            · exact Or.inr ⟨hh, Or.inr hh'⟩
        have hk' := singleKeeps_mono u hu e prev hh ht hk
        rw [hpp] at hk'
        have hstep : singleStep u true prev' '\'' z' = ('\'', true) := by
          simp [singleStep, hk']
        rw [ctxMap, hstep]
        simp only
        rw [ih _ _ _ _ hadj' (Or.inl rfl) hz']
      | @curl _ z' hz' =>
        rw [ctxMap, singleStep_other u (by decide)]
        simp only
        rw [ih _ _ (some '’') _ hadj' (Or.inr rfl) hz']
    · have : ∃ y z', z = y :: z' ∧ y ≠ '\'' ∧
          Curled (ctxMap (singleStep u) (singleStep u e prev '\'' cs).2 (some '\'') cs) z' := by
        rcases h with h | h <;> rw [h] at hz <;> cases hz with
        | keep hz => exact ⟨_, _, rfl, by decide, hz⟩
      obtain ⟨y, z', rfl, hy, hz'⟩ := this
      rw [ctxMap, singleStep_other u hy]
      simp only
      rw [ih _ _ (some y) _ hadj' (Or.inr rfl) hz']

/-! ## The character at one position -/

/-- The state after `a`, when `b` follows. -/
def ctxState {σ} (f : σ → Option Char → Char → List Char → Char × σ) (st : σ) (prev : Option Char) :
    List Char → List Char → σ
  | [], _ => st
  | c :: cs, b => ctxState f (f st prev c (cs ++ b)).2 (some c) cs b

theorem ctxMap_append {σ} (f : σ → Option Char → Char → List Char → Char × σ) (a b : List Char) :
    ∀ st prev, ∃ a', a'.length = a.length ∧ ctxMap f st prev (a ++ b) =
      a' ++ ctxMap f (ctxState f st prev a b) (a.getLast?.or prev) b := by
  induction a with
  | nil => intro st prev; exact ⟨[], rfl, by simp [ctxState]⟩
  | cons c cs ih =>
    intro st prev
    obtain ⟨a', h1, h2⟩ := ih (f st prev c (cs ++ b)).2 (some c)
    refine ⟨(f st prev c (cs ++ b)).1 :: a', by simp [h1], ?_⟩
    rw [List.cons_append, ctxMap, h2]
    have : (c :: cs).getLast?.or prev = cs.getLast?.or (some c) := by
      cases cs with
      | nil => rfl
      | cons d ds => rw [List.getLast?_cons_cons]; simp [List.getLast?_cons]
    rw [this]; rfl

theorem ctxMap_at {σ} (f : σ → Option Char → Char → List Char → Char × σ) (a b : List Char) (c : Char)
    (st : σ) : (ctxMap f st none (a ++ c :: b))[a.length]? =
      some (f (ctxState f st none a (c :: b)) a.getLast? c b).1 := by
  obtain ⟨a', h1, h2⟩ := ctxMap_append f a (c :: b) st none
  rw [h2, List.getElem?_append_right (by omega), h1, Nat.sub_self, ctxMap]
  simp

theorem ctxState_append {σ} (f : σ → Option Char → Char → List Char → Char × σ) (a b r : List Char) :
    ∀ st prev, ctxState f st prev (a ++ b) r =
      ctxState f (ctxState f st prev a (b ++ r)) (a.getLast?.or prev) b r := by
  induction a with
  | nil => intro st prev; simp [ctxState]
  | cons c cs ih =>
    intro st prev
    rw [List.cons_append, ctxState, ih, ctxState, List.append_assoc]
    congr 1
    cases cs with
    | nil => rfl
    | cons d ds => rw [List.getLast?_cons_cons]; simp [List.getLast?_cons]

theorem ctxState_double_none (a : List Char) (h : '"' ∉ a) : ∀ st prev r,
    ctxState doubleStep st prev a r = st := by
  induction a with
  | nil => intro st prev r; rfl
  | cons c cs ih =>
    intro st prev r
    have hc : c ≠ '"' := fun hh => h (by simp [hh])
    rw [ctxState, ih (fun hh => h (by simp [hh]))]
    simp [doubleStep, hc]

theorem shouldBeOpening_bool (p n e : Bool) (prev next : Option Char)
    (hp : p = prev.all fun c => isWs c || c = '(' || c = '[' || c = '{' || c = ldq || c = lsq)
    (hn : n = next.all fun c => isWs c || c = '.' || c = ',' || c = ';' || c = ':' || c = '!' || c = '?' ||
        c = ')' || c = ']' || c = '}') :
    shouldBeOpening prev next e = (if p && !n then true else if n && !p then false else e) := by
  subst hp hn
  unfold shouldBeOpening
  cases prev <;> cases next <;> rfl

theorem shouldBeOpening_spec (a b : List Char) (e : Bool) :
    shouldBeOpening a.getLast? b.head? e =
      (if QuoteMayOpen a ∧ ¬ QuoteMayClose b then true
       else if QuoteMayClose b ∧ ¬ QuoteMayOpen a then false else e) := by
  rw [shouldBeOpening_bool (decide (QuoteMayOpen a)) (decide (QuoteMayClose b))]
  · by_cases k1 : QuoteMayOpen a <;> by_cases k2 : QuoteMayClose b <;> simp [k1, k2]
  · have : ∀ o : Option Char, (∀ c ∈ o, isWs c = true ∨ c ∈ "([{“‘".toList) ↔
      (o.all fun c => isWs c || c = '(' || c = '[' || c = '{' || c = ldq || c = lsq) = true := by
      intro o; cases o with
      | none => simp
      | some c => simp [or_assoc]; simp [ldq, lsq]
    have k : QuoteMayOpen a ↔ _ := this a.getLast?
    rw [Bool.eq_iff_iff, decide_eq_true_iff, k]
  · have : ∀ o : Option Char, (∀ c ∈ o, isWs c = true ∨ c ∈ ".,;:!?)]}".toList) ↔
      (o.all fun c => isWs c || c = '.' || c = ',' || c = ';' || c = ':' || c = '!' || c = '?' ||
        c = ')' || c = ']' || c = '}') = true := by
      intro o; cases o <;> simp [or_assoc]
    have k : QuoteMayClose b ↔ _ := this b.head?
    rw [Bool.eq_iff_iff, decide_eq_true_iff, k]

end Hongdown
