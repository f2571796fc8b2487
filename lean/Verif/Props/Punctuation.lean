import Verif.Lemmas.PunctPipeline

/-!
# Typographic punctuation: C06–C10, C34, C59
-/

namespace Hongdown.Props
open Model Spec

/-! ## C06: ellipsis -/

/-- **C06.** Expanding every ellipsis gives the same text before and after; in particular
the input is recovered if it had no ellipsis character. -/
theorem c06_ellipsis_expand (s : List Char) :
    expand '…' ['.', '.', '.'] (transformEllipsis s) = expand '…' ['.', '.', '.'] s ∧
    ('…' ∉ s → expand '…' ['.', '.', '.'] (transformEllipsis s) = s) := by
  have h := tE_expand ['.', '.', '.'] s rfl
  exact ⟨h, fun hn => h.trans (expand_of_not_mem _ _ _ hn)⟩

/-- **C06.** A second pass changes nothing exactly when no maximal run of dots has length
6, 10, 14, ... -/
theorem c06_ellipsis_stable_iff (s : List Char) :
    transformEllipsis (transformEllipsis s) = transformEllipsis s ↔
      ∀ n ∈ runs '.' s, ¬ (6 ≤ n ∧ n % 4 = 2) :=
  tE_stable_iff s

/-- **C06.** Idempotence fails. -/
theorem c06_ellipsis_idempotent_false :
    ¬ ∀ s, transformEllipsis (transformEllipsis s) = transformEllipsis s := by
  intro h
  exact absurd (h "wait......".toList) (by decide)

/-- **C06.** Three dots remain in the output exactly in the same cases, so the promised
replacement of `...` is incomplete there. -/
theorem c06_ellipsis_complete_iff (s : List Char) :
    ¬ ['.', '.', '.'] <:+: transformEllipsis s ↔ ∀ n ∈ runs '.' s, ¬ (6 ≤ n ∧ n % 4 = 2) := by
  rw [← tE_fixed_iff, tE_stable_iff]

example : runs '.' "a...b......".toList = [0, 3, 6] := by decide
example : transformEllipsis "a...b......".toList = "a…b…...".toList := by decide
example : transformEllipsis "a....b.....c".toList = "a….b…..c".toList ∧
    runs '.' "a....b.....c".toList = [0, 4, 5, 0].map id := by decide

/-! ## C07: dashes -/

/-- **C07.** Long patterns: none is left, the pass is idempotent, and expanding the dash
recovers the input. -/
theorem c07_dashes_long (pat : List Char) (rep : Char) (h2 : 2 ≤ pat.length)
    (hr : rep ∉ pat) (s : List Char) :
    ¬ pat <:+: transformDashes pat rep s ∧
    transformDashes pat rep (transformDashes pat rep s) = transformDashes pat rep s ∧
    expand rep pat (transformDashes pat rep s) = expand rep pat s ∧
    (rep ∉ s → expand rep pat (transformDashes pat rep s) = s) :=
  ⟨tD_not_infix h2 hr s, tD_id h2 _ (tD_not_infix h2 hr s), tD_expand h2 hr s,
    fun hn => (tD_expand h2 hr s).trans (expand_of_not_mem _ _ _ hn)⟩

example : transformDashes "--".toList '—' "a--b---c".toList = "a—b—-c".toList := by decide

/-- **C07.** Long patterns: text without the pattern is untouched. -/
theorem c07_dashes_long_unchanged (pat : List Char) (rep : Char) (h2 : 2 ≤ pat.length)
    (s : List Char) (h : ¬ pat <:+: s) : transformDashes pat rep s = s := tD_id h2 s h

/-- **C07.** One-character patterns: exactly the occurrences with whitespace or a text end
on both sides are replaced, position by position. -/
theorem c07_dashes_single (p rep : Char) (s : List Char) (i : Nat) :
    (transformDashes [p] rep s)[i]? = s[i]?.map fun c =>
      if c = p ∧ (i = 0 ∨ (s[i - 1]?).all isWs = true) ∧ (s[i + 1]?).all isWs = true
      then rep else c := by
  rw [tS_eq, tS_getElem]
  have hedge : ∀ o, edge o = o.all isWs := by intro o; cases o <;> simp [edge]
  cases i with
  | zero =>
    congr 1; funext c
    have h0 : edge none = true := by decide
    simp only [hedge (s[0 + 1]?), h0, if_true, true_or]
  | succ i =>
    congr 1; funext c
    simp [hedge]

/-- **C07.** One-character patterns: the pass is idempotent, and expanding recovers. -/
theorem c07_dashes_single_idempotent (p rep : Char) (hp : isWs p = false) (hr : isWs rep = false)
    (hne : rep ≠ p) (s : List Char) :
    transformDashes [p] rep (transformDashes [p] rep s) = transformDashes [p] rep s ∧
    expand rep [p] (transformDashes [p] rep s) = expand rep [p] s := by
  simp only [tS_eq]
  exact ⟨dashGo_single_idem p rep hp hr hne s none none rfl, dashGo_single_expand p rep hne s none⟩

example : transformDashes "-".toList '–' "- a - b-c -".toList = "– a – b-c –".toList := by decide
example : isWs '-' = false ∧ isWs '–' = false ∧ '–' ≠ '-' := by decide

/-! ## C08: double quotes -/

/-- **C08.** Length and all other characters are kept; each straight quote is curled. -/
theorem c08_double_quotes_pointwise (s : List Char) :
    (transformDoubleQuotes s).length = s.length ∧
    ∀ p ∈ s.zip (transformDoubleQuotes s),
      (p.1 ≠ '"' ∧ p.2 = p.1) ∨ (p.1 = '"' ∧ (p.2 = '“' ∨ p.2 = '”')) := by
  refine ⟨ctxMap_length _ _ _ _, ctxMap_zip doubleStep
    (fun a b => (a ≠ '"' ∧ b = a) ∨ (a = '"' ∧ (b = '“' ∨ b = '”'))) ?_ s true none⟩
  intro st prev c rest
  rcases doubleStep_cases st prev c rest with ⟨h1, h⟩ | ⟨h1, h | h⟩ <;> rw [h]
  · exact Or.inl ⟨h1, rfl⟩
  · exact Or.inr ⟨h1, Or.inl rfl⟩
  · exact Or.inr ⟨h1, Or.inr rfl⟩

/-- **C08.** No straight quote remains and the pass is idempotent. -/
theorem c08_double_quotes_idempotent (s : List Char) :
    '"' ∉ transformDoubleQuotes s ∧
    transformDoubleQuotes (transformDoubleQuotes s) = transformDoubleQuotes s :=
  ⟨double_no_straight s, double_id _ (double_no_straight s)⟩

example : transformDoubleQuotes "say \"hi \"there\" now\"".toList =
    "say “hi “there” now”".toList := by decide

/-- **C08.** Well-formed quotations come out right: a quote at the start or after a space
and before a letter opens, one after a letter and before a space or the end closes. -/
theorem c08_double_quotes_balanced (a b : List Char)
    (ha : '"' ∉ a) (hb : '"' ∉ b) (ha0 : a ≠ [])
    (h1 : ∀ c ∈ a.head?, c.isAlpha = true) (h2 : ∀ c ∈ a.getLast?, c.isAlpha = true)
    (h3 : ∀ c ∈ b.head?, isWs c = true) :
    transformDoubleQuotes ('"' :: a ++ '"' :: b) = '“' :: a ++ '”' :: b := by
  cases a with
  | nil => exact absurd rfl ha0
  | cons x xs =>
    have hx : x.isAlpha = true := h1 x rfl
    have hstep : doubleStep true none '"' ((x :: xs) ++ '"' :: b) = ('“', false) := by
      simp only [doubleStep, if_true, List.cons_append, List.head?_cons, shouldBeOpening_open hx]; rfl
    rw [transformDoubleQuotes, List.cons_append, ctxMap, hstep]
    simp only
    rw [ctxMap_double_append _ _ ha]
    obtain ⟨y, hy⟩ : ∃ y, (x :: xs).getLast? = some y :=
      ⟨_, List.getLast?_eq_some_getLast (by simp)⟩
    have hya := h2 y hy
    rw [hy, Option.some_or, ctxMap]
    have hstep2 : doubleStep false (some y) '"' b = ('”', true) := by
      simp only [doubleStep, if_true, shouldBeOpening_close hya b.head? h3]; rfl
    rw [hstep2]
    have := ctxMap_double_append b [] hb true (some '"')
    rw [List.append_nil] at this
    simp only [this, ctxMap, List.append_nil, List.cons_append]

example : transformDoubleQuotes "\"Hello there\" said".toList = "“Hello there” said".toList := by
  decide

/-- **C08.** Where a quotation can begin but not end, the quote opens. -/
theorem c08_double_quote_opens (a b : List Char) (h1 : QuoteMayOpen a) (h2 : ¬ QuoteMayClose b) :
    (transformDoubleQuotes (a ++ '"' :: b))[a.length]? = some '“' := by
  rw [transformDoubleQuotes, ctxMap_at]
  simp [doubleStep, shouldBeOpening_spec, h1, h2, ldq]

/-- **C08.** Where a quotation can end but not begin, the quote closes. -/
theorem c08_double_quote_closes (a b : List Char) (h1 : ¬ QuoteMayOpen a) (h2 : QuoteMayClose b) :
    (transformDoubleQuotes (a ++ '"' :: b))[a.length]? = some '”' := by
  rw [transformDoubleQuotes, ctxMap_at]
  simp [doubleStep, shouldBeOpening_spec, h1, h2, rdq]

/-- **C08.** Elsewhere the first quote opens. -/
theorem c08_double_quote_first (a b : List Char) (h : QuoteMayOpen a ↔ QuoteMayClose b)
    (ha : '"' ∉ a) : (transformDoubleQuotes (a ++ '"' :: b))[a.length]? = some '“' := by
  rw [transformDoubleQuotes, ctxMap_at, ctxState_double_none a ha]
  by_cases k : QuoteMayOpen a
  · simp [doubleStep, shouldBeOpening_spec, k, h.mp k, ldq]
  · have k2 : ¬ QuoteMayClose b := fun x => k (h.mpr x)
    simp [doubleStep, shouldBeOpening_spec, k, k2, ldq]

/-- **C08.** Elsewhere a later quote closes exactly if the quote before it opened. -/
theorem c08_double_quote_alternates (a m b : List Char)
    (h : QuoteMayOpen (a ++ '"' :: m) ↔ QuoteMayClose b) (hm : '"' ∉ m) :
    let out := transformDoubleQuotes (a ++ '"' :: m ++ '"' :: b)
    (out[a.length]? = some '“' ∧ out[a.length + 1 + m.length]? = some '”') ∨
    (out[a.length]? = some '”' ∧ out[a.length + 1 + m.length]? = some '“') := by
  intro out
  have e1 : out[a.length]? = some (doubleStep (ctxState doubleStep true none a ('"' :: (m ++ '"' :: b)))
      a.getLast? '"' (m ++ '"' :: b)).1 := by
    show (transformDoubleQuotes (a ++ '"' :: m ++ '"' :: b))[a.length]? = _
    rw [transformDoubleQuotes, List.append_assoc, List.cons_append, ctxMap_at]
  have e2 : out[a.length + 1 + m.length]? =
      some (doubleStep (doubleStep (ctxState doubleStep true none a ('"' :: (m ++ '"' :: b)))
      a.getLast? '"' (m ++ '"' :: b)).2 (a ++ '"' :: m).getLast? '"' b).1 := by
    have : a.length + 1 + m.length = (a ++ '"' :: m).length := by simp; omega
    rw [this]
    show (transformDoubleQuotes (a ++ '"' :: m ++ '"' :: b))[(a ++ '"' :: m).length]? = _
    rw [transformDoubleQuotes, ctxMap_at, ctxState_append]
    rw [ctxState, ctxState_double_none m hm]
    simp
  have e3 : ∀ e, shouldBeOpening (a ++ '"' :: m).getLast? b.head? e = e := by
    intro e
    rw [shouldBeOpening_spec]
    by_cases k : QuoteMayOpen (a ++ '"' :: m)
    · simp [k, h.mp k]
    · have k2 : ¬ QuoteMayClose b := fun x => k (h.mpr x)
      simp [k, k2]
  rw [e1, e2]
  rcases doubleStep_cases (ctxState doubleStep true none a ('"' :: (m ++ '"' :: b)))
      a.getLast? '"' (m ++ '"' :: b) with ⟨h1, _⟩ | ⟨_, h1 | h1⟩
  · exact absurd rfl h1
  · left; rw [h1]; simp only [doubleStep, e3]; simp [rdq]
  · right; rw [h1]; simp only [doubleStep, e3]; simp [ldq]

example : QuoteMayOpen "say (".toList ∧ ¬ QuoteMayClose "hi\")".toList ∧
    ¬ QuoteMayOpen "(\"hi".toList ∧ QuoteMayClose ")".toList := by decide
example : transformDoubleQuotes "say (\"hi\")".toList = "say (“hi”)".toList := by decide
example : (QuoteMayOpen "a\"b".toList ↔ QuoteMayClose "c".toList) ∧
    transformDoubleQuotes "a\"b\"c \" d".toList = "a“b”c “ d".toList := by decide

/-! ## C09: single quotes and apostrophes -/

/-- **C09.** Single quotes: length and other characters kept. -/
theorem c09_single_quotes_pointwise (u : Uni) (s : List Char) :
    (transformSingleQuotes u s).length = s.length ∧
    ∀ p ∈ s.zip (transformSingleQuotes u s),
      p.2 = p.1 ∨ (p.1 = '\'' ∧ (p.2 = '‘' ∨ p.2 = '’')) := by
  refine ⟨ctxMap_length _ _ _ _, ctxMap_zip (singleStep u)
    (fun a b => b = a ∨ (a = '\'' ∧ (b = '‘' ∨ b = '’'))) ?_ s true none⟩
  intro st prev c rest
  rcases singleStep_cases u st prev c rest with ⟨h1, h⟩ | ⟨rfl, _, h⟩ | ⟨h1, _, h⟩
  · rw [h]; exact Or.inl rfl
  · rw [h]; exact Or.inl rfl
  · exact Or.inr ⟨h1, h⟩

/-- **C09.** Apostrophes: length and other characters kept, only `’` is introduced. -/
theorem c09_apostrophes_pointwise (u : Uni) (s : List Char) :
    (transformApostrophes u s).length = s.length ∧
    ∀ p ∈ s.zip (transformApostrophes u s), p.2 = p.1 ∨ (p.1 = '\'' ∧ p.2 = '’') := by
  refine ⟨ctxMap_length _ _ _ _, ctxMap_zip (apostropheStep u)
    (fun a b => b = a ∨ (a = '\'' ∧ b = '’')) ?_ s 0 none⟩
  intro st prev c rest
  rcases apostropheStep_cases u st prev c rest with ⟨h1, h⟩ | ⟨h1, h⟩ | ⟨h1, h⟩ <;> rw [h]
  · exact Or.inl rfl
  · exact Or.inl h1.symm
  · exact Or.inr ⟨h1, rfl⟩

/-- **C09.** The apostrophe pass is idempotent. -/
theorem c09_apostrophes_idempotent (u : Uni) (hu : u.QuotesOk) (s : List Char) :
    transformApostrophes u (transformApostrophes u s) = transformApostrophes u s :=
  apostrophes_idem u hu s 0 none none (Or.inl rfl)

example : transformApostrophes asciiUni "'tis the dogs' it's".toList =
    "'tis the dogs' it’s".toList := by decide

/-- **C09.** The single quote pass is not idempotent, whatever the letters are, as long as
`a` is one and the quotes are none. -/
theorem c09_single_quotes_idempotent_false (u : Uni) (hu : u.QuotesOk) (ha : u.alphabetic 'a' = true) :
    ¬ ∀ s, transformSingleQuotes u (transformSingleQuotes u s) = transformSingleQuotes u s := by
  intro h
  have h1 : u.alphabetic '\'' = false := hu.alpha _ (by simp)
  have h2 : u.alphabetic '’' = false := hu.alpha _ (by simp)
  have := h ['a', '\'', '\'']
  revert this
  simp [transformSingleQuotes, ctxMap, singleStep, singleKeeps, ha, h1, h2, possessiveAhead,
    isAsciiPunct, isWs, isAsciiDigit, shouldBeOpening, lsq, rsq, ldq]

example : transformSingleQuotes asciiUni "a''".toList = "a'’".toList ∧
    transformSingleQuotes asciiUni "a'’".toList = "a‘’".toList := by decide

/-- **C09 (partial).** Full statement: `transformSingleQuotes u (transformSingleQuotes u s)
= transformSingleQuotes u s` for every `s` (refuted above). It holds when no two straight
single quotes are adjacent. -/
theorem c09_single_quotes_idempotent_partial (u : Uni) (hu : u.QuotesOk) (s : List Char)
    (h : ¬ ['\'', '\''] <:+: s) :
    transformSingleQuotes u (transformSingleQuotes u s) = transformSingleQuotes u s :=
  single_stable u hu s true none none _ (noAdj_of_not_infix s none h (by simp)) (Or.inl rfl)
    (Curled.refl _)

example : transformSingleQuotes asciiUni "he said 'it's goin' up' in '99".toList =
    "he said ‘it's goin’ up' in ’99".toList := by decide

/-- **C09.** A straight quote directly before a digit is an apostrophe, as in `'90s`. -/
theorem c09_before_digit (u : Uni) (a b : List Char) (d : Char) (hd : d.isDigit = true)
    (hu : u.alphabetic d = false) :
    (transformSingleQuotes u (a ++ '\'' :: d :: b))[a.length]? = some '’' := by
  have h1 : isAsciiDigit d = true := by
    simp [isAsciiDigit, Char.isDigit] at hd ⊢; exact hd
  have hr : 48 ≤ d.toNat ∧ d.toNat ≤ 57 := by simpa [isAsciiDigit] using h1
  have h2 : isWs d = false := by
    have : ∀ n, 48 ≤ n → n ≤ 57 → isWs (Char.ofNat n) = false := by
      intro n h1 h2
      obtain ⟨m, rfl⟩ : ∃ m, n = 48 + m := ⟨n - 48, by omega⟩
      have : m ≤ 9 := by omega
      match m, this with
      | 0, _ | 1, _ | 2, _ | 3, _ | 4, _ | 5, _ | 6, _ | 7, _ | 8, _ | 9, _ => decide
    have := this d.toNat hr.1 hr.2
    rwa [Char.ofNat_toNat] at this
  have h3 : isAsciiPunct d = false := by
    simp [isAsciiPunct]; omega
  have h4 : d ≠ 's' ∧ d ≠ 'S' := by
    constructor <;> rintro rfl <;> revert hr <;> decide
  rw [transformSingleQuotes, ctxMap_at]
  simp [singleStep, singleKeeps, possessiveAhead, hu, h1, h2, h3, h4, rsq]

/-- **C09.** After the start or a space and before a letter, a quote opens exactly if there is
another straight quote among the next fifty characters, and is an apostrophe otherwise. -/
theorem c09_word_start (u : Uni) (a b : List Char) (x : Char) (ha : ∀ c ∈ a.getLast?, isWs c = true)
    (hws : ∀ c, isWs c = true → u.alphabetic c = false)
    (hx : u.alphabetic x = true) (hs : x ≠ 's' ∧ x ≠ 'S') (hdig : x.isDigit = false) :
    (transformSingleQuotes u (a ++ '\'' :: x :: b))[a.length]? =
      if '\'' ∈ (x :: b).take 50 then some '‘' else some '’' := by
  have h1 : isAsciiDigit x = false := by
    simp [isAsciiDigit, Char.isDigit] at hdig ⊢; exact hdig
  have h0 : a.getLast?.any u.alphabetic = false := by
    cases hl : a.getLast? with
    | none => rfl
    | some c => simpa using hws c (ha c hl)
  have h0' : (a.getLast? = none ∨ a.getLast?.any isWs = true) := by
    cases hl : a.getLast? with
    | none => exact Or.inl rfl
    | some c => exact Or.inr (by simpa using ha c hl)
  have hp : possessiveAhead u (x :: b) = false := by simp [possessiveAhead, hs]
  rw [transformSingleQuotes, ctxMap_at]
  have hk : ∀ st, singleKeeps u st a.getLast? (x :: b) = false := by
    intro st; simp [singleKeeps, h0, hp]
  have ht : ((x :: b).take 50).any (· = '\'') = decide ('\'' ∈ (x :: b).take 50) := by
    rw [Bool.eq_iff_iff]; simp [eq_comm (a := x)]
  simp only [singleStep, if_true, hk, ht]
  have h5 : (decide (a.getLast? = none) || a.getLast?.any isWs) = true := by
    simpa using h0'
  simp only [Bool.false_eq_true, if_false, List.head?_cons, Option.any_some, h1, h5, hx, Bool.and_self,
    if_true, decide_eq_true_eq]
  split <;> simp [lsq, rsq]

/-- **C09.** The apostrophe pass curls a quote between two letters or digits. -/
theorem c09_contraction (u : Uni) (a b : List Char) (x y : Char)
    (hx : u.alphanumeric x = true) (hy : u.alphanumeric y = true) :
    (transformApostrophes u (a ++ [x] ++ '\'' :: y :: b))[a.length + 1]? = some '’' := by
  have e : a.length + 1 = (a ++ [x]).length := by simp
  rw [transformApostrophes, e, ctxMap_at]
  simp [apostropheStep, hx, hy, rsq]

/-- **C09.** It curls the possessive after a closing bracket. -/
theorem c09_possessive_bracket (u : Uni) (a b : List Char) (x y : Char)
    (hx : x ∈ ")]}".toList) (hn : u.alphanumeric x = false) (hy : y = 's' ∨ y = 'S')
    (hb : ∀ c ∈ b.head?, u.alphabetic c = false) :
    (transformApostrophes u (a ++ [x] ++ '\'' :: y :: b))[a.length + 1]? = some '’' := by
  have e : a.length + 1 = (a ++ [x]).length := by simp
  have hp : possessiveAhead u (y :: b) = true := by
    simp only [possessiveAhead, List.head?_cons, List.tail_cons]
    cases hh : b.head? with
    | none => rcases hy with rfl | rfl <;> simp
    | some c => rcases hy with rfl | rfl <;> simp [hb c hh]
  rw [transformApostrophes, e, ctxMap_at]
  have hx' : (x = ']' ∨ x = ')') ∨ x = '}' := by simpa [or_comm, or_left_comm, or_assoc] using hx
  simp [apostropheStep, hn, hp, hx', rsq]

/-- **C09.** With both passes a quote between two letters is an apostrophe, never a quotation
mark. -/
theorem c09_contraction_both (u : Uni) (a b : List Char) (x y : Char)
    (hq : u.QuotesOk) (hal : ∀ c, u.alphabetic c = true → u.alphanumeric c = true)
    (hx : u.alphabetic x = true) (hy : u.alphabetic y = true) :
    (transformApostrophes u (transformSingleQuotes u (a ++ [x] ++ '\'' :: y :: b)))[a.length + 1]? =
      some '’' := by
  have hx0 : x ≠ '\'' := by rintro rfl; rw [hq.alpha _ (by simp)] at hx; exact absurd hx (by decide)
  have hy0 : y ≠ '\'' := by rintro rfl; rw [hq.alpha _ (by simp)] at hy; exact absurd hy (by decide)
  obtain ⟨a', h1, h2⟩ := ctxMap_append (singleStep u) a ([x] ++ '\'' :: y :: b) true none
  have : ∃ b', transformSingleQuotes u (a ++ [x] ++ '\'' :: y :: b) = a' ++ [x] ++ '\'' :: y :: b' := by
    rw [transformSingleQuotes, List.append_assoc, h2]
    simp only [List.singleton_append, ctxMap]
    simp [singleStep, hx0, hy0, singleKeeps, hx, hy]
  obtain ⟨b', hb'⟩ := this
  rw [hb', ← h1]
  exact c09_contraction u a' b' x y (hal x hx) (hal y hy)

example : transformSingleQuotes asciiUni "the '90s, 'em".toList = "the ’90s, ’em".toList := by decide
example : transformSingleQuotes asciiUni "see 'a b' there".toList = "see ‘a b’ there".toList := by decide
example : transformApostrophes asciiUni "don't (x)'s".toList = "don’t (x)’s".toList := by decide

/-! ## C10: the whole pipeline -/

/-- A dash setting accepted by `DashPattern::new`: not empty, printable ASCII. -/
def ValidPattern (p : List Char) : Prop := p ≠ [] ∧ ∀ c ∈ p, IsGraphic c

/-- **C10.** The text is the same up to typography. -/
theorem c10_punctuation_fold (u : Uni) (o : PunctOpts)
    (hen : ∀ p ∈ o.enDash, ValidPattern p) (hem : ∀ p ∈ o.emDash, ValidPattern p) (s : List Char) :
    fold o.enDash o.emDash (transformPunctuation u o s) = fold o.enDash o.emDash s := by
  obtain ⟨bd, bs, ba, be, en, em⟩ := o
  rw [transformPunctuation_eq]
  simp only at *
  have h1 : ∀ x, fold en em (stApo u ba x) = fold en em x := by
    intro x; cases ba with
    | false => rfl
    | true => exact ctxMap_fold _ _ _ (apostropheStep_fold u en em) _ _ _
  have h2 : ∀ x, fold en em (stSgl u bs x) = fold en em x := by
    intro x; cases bs with
    | false => rfl
    | true => exact ctxMap_fold _ _ _ (singleStep_fold u en em) _ _ _
  have h3 : ∀ x, fold en em (stDbl bd x) = fold en em x := by
    intro x; cases bd with
    | false => rfl
    | true => exact ctxMap_fold _ _ _ (doubleStep_fold en em) _ _ _
  have h4 : ∀ x, fold en em (stEll be x) = fold en em x := by
    intro x; cases be with
    | false => rfl
    | true => exact tE_fold en em x
  have h5 : ∀ x, fold en em (stDash en enDashC x) = fold en em x := by
    intro x; cases en with
    | none => rfl
    | some p =>
      have hp := hen p rfl
      exact tD_fold _ _ p enDashC (fun c hc => by have := (hp.2 c hc).2; omega)
        (by simp [foldChar, enDashC]) hp.1 x
  have h6 : ∀ x, fold en em (stDash em emDashC x) = fold en em x := by
    intro x; cases em with
    | none => rfl
    | some p =>
      have hp := hem p rfl
      exact tD_fold _ _ p emDashC (fun c hc => by have := (hp.2 c hc).2; omega)
        (by simp [foldChar, emDashC]) hp.1 x
  rw [h1, h2, h3, h4, h5, h6]

/-- **C10.** With everything off the text is unchanged. -/
theorem c10_punctuation_off (u : Uni) (s : List Char) :
    transformPunctuation u ⟨false, false, false, false, none, none⟩ s = s := rfl

/-- The default options (src/lib.rs:151-205). -/
def defaultPunct : PunctOpts := ⟨true, true, false, true, none, some ['-', '-']⟩

example : ValidPattern ['-', '-'] := ⟨by simp, by simp [IsGraphic]⟩
example : transformPunctuation asciiUni defaultPunct "\"Don't\" --- 'wait...'".toList =
    "“Don't” —- ‘wait…’".toList := by decide

/-! ## C34: conflicting dash settings -/

/-- **C34.** Rejected exactly when both are enabled with the same pattern. -/
theorem c34_conflict_iff (o : PunctOpts) (p : List Char) :
    validateDashSettings o = some p ↔ o.enDash = some p ∧ o.emDash = some p := by
  obtain ⟨bd, bs, ba, be, en, em⟩ := o
  cases en <;> cases em <;> simp [validateDashSettings]
  rename_i a b
  by_cases h : a = b
  · subst h; simp
  · simp only [h, false_and, false_iff, not_and]
    rintro rfl rfl; exact h rfl

/-- **C34.** Acceptance is not enough: `en = "---"`, `em = "--"` passes validation but no
text is ever given an en dash by these settings. -/
theorem c34_en_shadowed (en em : List Char)
    (h2 : 2 ≤ em.length) (h1 : 2 ≤ en.length) (hsub : em <:+: en)
    (hb : ∀ c ∈ em, IsGraphic c) (s : List Char) :
    transformDashes en enDashC (transformDashes em emDashC s) = transformDashes em emDashC s := by
  apply tD_id h1
  intro h
  have hr : emDashC ∉ em := not_mem_of_ascii (fun c hc => by have := (hb c hc).2; omega) (by decide)
  exact tD_not_infix h2 hr s (hsub.trans h)

/-- **C34.** Which of two long patterns takes effect: a text that is the en dash pattern
becomes an en dash exactly when the em dash pattern does not occur in it. -/
theorem c34_en_effective_iff (u : Uni) (o : PunctOpts) (en em : List Char)
    (hen : o.enDash = some en) (hem : o.emDash = some em)
    (h1 : 2 ≤ en.length) (h2 : 2 ≤ em.length)
    (ha : ∀ c ∈ en, IsGraphic c) (hb : ∀ c ∈ em, IsGraphic c) :
    transformPunctuation u o en = ['–'] ↔ ¬ em <:+: en := by
  rw [transformPunctuation_eq, hen, hem]
  simp only [stDash]
  have ha' : ∀ c ∈ en, c.toNat < 128 := fun c hc => by have := (ha c hc).2; omega
  constructor
  · intro h hsub
    rw [c34_en_shadowed en em h2 h1 hsub hb] at h
    have hm := mem_quotes u o.curlyDouble o.curlySingle o.curlyApostrophes o.ellipsis '–' (by decide)
      (transformDashes em emDashC en) (by rw [h]; simp)
    rcases mem_tD h2 '–' en hm with hm | hm
    · have := ha' _ hm; revert this; decide
    · revert hm; decide
  · intro h
    rw [tD_id h2 en h]
    have := tD_match (rep := enDashC) h1 []
    rw [List.append_nil, tD_nil] at this
    rw [this]
    exact stages_endash u _ _ _ _

example : validateDashSettings ⟨true, true, true, true, some "---".toList, some "--".toList⟩ = none := by
  decide

/-! ## C59: idempotence of the pipeline -/

/-- **C59.** `transform_punctuation` with the default options is not idempotent. -/
theorem c59_pipeline_idempotent_false (u : Uni) :
    ¬ ∀ s, transformPunctuation u defaultPunct (transformPunctuation u defaultPunct s)
      = transformPunctuation u defaultPunct s := by
  intro h
  have := h "......".toList
  revert this
  simp [transformPunctuation, defaultPunct, transformDashes, dashGo, transformEllipsis, ellipsisC,
    transformDoubleQuotes, transformSingleQuotes, ctxMap, doubleStep, singleStep]

/-- **C59 (partial).** Full statement: `transformPunctuation u o` is idempotent for all
options and texts (refuted above). It is for texts without dot runs of length 6, 10, ...
and without adjacent straight single quotes, for dash patterns of two or more characters
that do not contain a dot. Patterns of one character are missing. -/
theorem c59_pipeline_idempotent_partial (u : Uni) (hu : u.QuotesOk) (o : PunctOpts)
    (hpat : ∀ p, o.enDash = some p ∨ o.emDash = some p →
      2 ≤ p.length ∧ (∀ c ∈ p, IsGraphic c) ∧ '.' ∉ p)
    (s : List Char) (hdots : ∀ n ∈ runs '.' s, ¬ (6 ≤ n ∧ n % 4 = 2))
    (hq : ¬ ['\'', '\''] <:+: s) :
    transformPunctuation u o (transformPunctuation u o s) = transformPunctuation u o s :=
  pipeline_idem u hu o
    (fun p hp => ⟨(hpat p hp).1, fun c hc => by have := ((hpat p hp).2.1 c hc).2; omega, (hpat p hp).2.2⟩)
    s hdots hq

example : transformPunctuation asciiUni { defaultPunct with curlyApostrophes := true }
    "\"It's\" the dogs' -- 'wait...'".toList = "“It’s” the dogs’ — ‘wait…’".toList := by decide

end Hongdown.Props
