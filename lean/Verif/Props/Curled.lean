import Verif.Lemmas.Curled
import Verif.Props.Apostrophe

/-!
# C106: with `curly_apostrophes` on, apostrophes are curled and quotation marks are not

The setting is for apostrophes (README.md:251, CHANGES.md:281); single quotation marks have their own, `curly_single_quotes`.
-/

namespace Hongdown.Props
open Model Spec

/-- **C106 (partial).** Full statement: for all apostrophes, see `c106_end_false`, `c106_after_quotation_false` and
`c95_symbol_false`. Whatever the other settings, an apostrophe between letters, of a possessive, or at the end of a word
before white space if no single mark comes before it, becomes a right single mark. Dashes and ellipses are left out, as in
C95. -/
theorem c106_curled_partial (u : Uni) (hu : MarksNoLetters u) (hn : AlnumOk u)
    (hs : u.alphabetic 's' = true ∧ u.alphabetic 'S' = true) (o : PunctOpts) (ho : o.curlyApostrophes = true)
    (a b : List Char) (hd : NoDashes o (a ++ '\'' :: b))
    (h : InWord u a b ∨ Possessive u a b ∨ (SpaceEnd u a b ∧ '\'' ∉ a)) :
    (transformPunctuation u o (a ++ '\'' :: b))[a.length]? = some '’' := by
  rw [quotes_only hd, ho]
  obtain ⟨a', b', e, ha, hb⟩ := double_around o.curlyDouble a b
  rw [e, pairs_length ha]
  have hq' : '\'' ∉ a → '\'' ∉ a' := by
    intro hq hm
    obtain ⟨x, hx, hd⟩ := pairs_right ha _ hm
    rcases hd with ⟨_, e⟩ | ⟨_, e | e | e⟩
    · exact hq (e ▸ hx)
    all_goals exact absurd e (by decide +kernel)
  have hk : (stSgl u o.curlySingle (a' ++ '\'' :: b'))[a'.length]? = some '\'' := by
    apply single_at_kept
    rcases h with h | h | ⟨h, hq⟩
    · exact keeps_inWord (inWord_dbl hu ha hb h) _
    · exact keeps_possessive (possessive_dbl hu ha hb h) hs _
    · rw [ctxState_none _ _ _ _ (hq' hq)]
      exact keeps_wordEnd (wordEnd_dbl hu ha hb ⟨h.1, fun y hy => .inl (h.2 y hy)⟩)
  obtain ⟨a2, b2, e2, ha2, hb2⟩ := single_around hk
  rw [e2, pairs_length ha2]
  rcases h with h | h | ⟨h, hq⟩
  · exact apo_inWord hn (inWord_sgl hu ha2 hb2 (inWord_dbl hu ha hb h))
  · exact apo_possessive hn (possessive_sgl hu ha2 hb2 (possessive_dbl hu ha hb h))
  · refine apo_spaceEnd hn (spaceEnd_of (fun _ _ => sgl_letter hu) (fun _ _ => sgl_ws) ha2 hb2
      (spaceEnd_of (fun _ _ => dbl_letter hu) (fun _ _ => dbl_ws) ha hb h)) ?_
    intro hm
    obtain ⟨x, hx, hd⟩ := pairs_right ha2 _ hm
    rcases hd with ⟨h, e⟩ | ⟨e, _⟩
    · exact h e.symm
    · exact hq' hq (e ▸ hx)

/-- **C106.** With `curly_single_quotes` off, the marks of a quotation stay straight, both of them. -/
theorem c106_quotation_partial (u : Uni) (hu : MarksNoLetters u) (hn : AlnumOk u) (o : PunctOpts) (ho : o.curlySingle = false)
    (a w b : List Char) (hd : NoDashes o (a ++ '\'' :: (w ++ '\'' :: b))) (ha : '\'' ∉ a) (hw : '\'' ∉ w) (h : SingleQuoted u a w b) :
    (transformPunctuation u o (a ++ '\'' :: (w ++ '\'' :: b)))[a.length]? = some '\'' ∧
      (transformPunctuation u o (a ++ '\'' :: (w ++ '\'' :: b)))[a.length + 1 + w.length]? = some '\'' := by
  rw [quotes_only hd, ho]
  obtain ⟨a', t', e, hpa, hpt⟩ := double_around o.curlyDouble a (w ++ '\'' :: b)
  obtain ⟨w', t2, rfl, hpw, hpt2⟩ := pairs_split hpt
  match t2, hpt2 with
  | m :: b', hpb =>
    have hm : m = '\'' := dbl_eq hpb.1 (by decide)
    subst hm
    have hno : ∀ {s s' : List Char}, Pairs Dbl s s' → '\'' ∉ s → '\'' ∉ s' := by
      intro s s' hp hq hm
      obtain ⟨x, hx, hd⟩ := pairs_right hp _ hm
      rcases hd with ⟨_, e⟩ | ⟨_, e | e | e⟩
      · exact hq (e ▸ hx)
      all_goals exact absurd e (by decide +kernel)
    have hal : ∀ {x y : Char}, Dbl x y → u.alphanumeric x = true → u.alphanumeric y = true := by
      intro x y hd hx
      rw [dbl_eq hd (by rintro rfl; rw [hn.other '"' (.inr (by decide +kernel))] at hx; cases hx)]
      exact hx
    have h' : SingleQuoted u a' w' b' := by
      obtain ⟨y, hy, hy1⟩ := h.first
      obtain ⟨x, hx, hx1⟩ := h.last
      obtain ⟨y', hy', e1⟩ := pairs_head' hpw y hy
      obtain ⟨x', hx', e2⟩ := pairs_last' hpw x hx
      refine ⟨?_, ⟨y', hy', hal e1 hy1⟩, ⟨x', hx', hal e2 hx1⟩, ?_, ?_⟩
      · intro z' hz'
        obtain ⟨z, hz, e⟩ := pairs_last hpa z' hz'
        exact dbl_ws e (h.before z hz)
      · intro z' hz'
        obtain ⟨z, hz, e⟩ := pairs_head hpb.2 z' hz'
        exact dbl_ws e (h.after z hz)
      · rintro rfl ⟨s, r, es, hs, hr⟩
        have ha0 : a = [] := by have := pairs_length hpa; simpa using this
        apply h.noS ha0
        match hv : w ++ '\'' :: b, hpt with
        | [], hp => rw [es] at hp; exact hp.elim
        | c :: r0, hp =>
          rw [es] at hp
          have hc : c = s := by
            rcases hp.1 with ⟨_, e⟩ | ⟨_, e | e | e⟩
            · exact e.symm
            all_goals rcases hs with rfl | rfl <;> exact absurd e (by decide)
          refine ⟨c, r0, rfl, hc ▸ hs, fun d hd => ?_⟩
          obtain ⟨d', hd', ed⟩ := pairs_head' hp.2 d hd
          rw [← dbl_letter hu ed]
          exact hr d' hd'
    show (stApo u o.curlyApostrophes (stSgl u false (stDbl _ _)))[_]? = _ ∧ (stApo u o.curlyApostrophes (stSgl u false (stDbl _ _)))[_]? = _
    rw [e, pairs_length hpa, pairs_length hpw]
    cases o.curlyApostrophes with
    | true => exact apo_quoted hn h' (hno hpa ha) (hno hpw hw)
    | false =>
      constructor
      · show (a' ++ _)[_]? = _
        simp
      · show (a' ++ _)[_]? = _
        rw [show a' ++ '\'' :: (w' ++ '\'' :: b') = (a' ++ '\'' :: w') ++ '\'' :: b' by simp,
          show a'.length + 1 + w'.length = (a' ++ '\'' :: w').length by simp; omega]
        simp

/-- Only apostrophes are curled. -/
def exCurled : PunctOpts := { exPunct with curlySingle := false, curlyApostrophes := true }

theorem isAlphanum_iff (c : Char) : c.isAlphanum = true ↔
    (65 ≤ c.toNat ∧ c.toNat ≤ 90) ∨ (97 ≤ c.toNat ∧ c.toNat ≤ 122) ∨ (48 ≤ c.toNat ∧ c.toNat ≤ 57) := by
  simp only [Char.isAlphanum, Char.isAlpha, Char.isUpper, Char.isLower, Char.isDigit, Bool.or_eq_true, Bool.and_eq_true,
    decide_eq_true_eq, ge_iff_le, UInt32.le_iff_toNat_le]
  exact or_assoc

theorem asciiUni_alnum : AlnumOk asciiUni where
  letter c h := by
    rcases h with h | h
    · have h : c.isAlpha = true := h
      simp [asciiUni, Char.isAlphanum, h]
    · refine (isAlphanum_iff c).2 (.inr (.inr ?_))
      simpa [isAsciiDigit] using h
  other c h := by
    cases e : asciiUni.alphanumeric c with
    | false => rfl
    | true =>
      have e := (isAlphanum_iff c).1 e
      simp only [isWs, isAsciiPunct, Bool.or_eq_true, Bool.and_eq_true, decide_eq_true_eq, beq_iff_eq] at h
      omega

example : transformPunctuation asciiUni exCurled "Say 'yes' or don't, it's the dogs' day, 2024's".toList =
    "Say 'yes' or don’t, it’s the dogs’ day, 2024’s".toList := by decide +kernel
example : SingleQuoted asciiUni "Say ".toList "yes".toList " now".toList where
  before := by decide +kernel
  first := ⟨'y', by decide +kernel, by decide +kernel⟩
  last := ⟨'s', by decide +kernel, by decide +kernel⟩
  after := by decide +kernel
  noS h := absurd h (by decide)
example : SpaceEnd asciiUni "the dogs".toList " day".toList := ⟨⟨'s', by decide +kernel, by decide +kernel⟩, by decide +kernel⟩

/-- **C106 is false** of apostrophes at the end of a word before punctuation: these stay straight. -/
theorem c106_end_false : ¬ ∀ (o : PunctOpts) (a b : List Char), o.curlyApostrophes = true → WordEnd asciiUni a b → '\'' ∉ a →
    NoDashes o (a ++ '\'' :: b) → (transformPunctuation asciiUni o (a ++ '\'' :: b))[a.length]? = some '’' := by
  intro h
  have := h exCurled "the dogs".toList ".".toList rfl ⟨⟨'s', by decide +kernel, by decide +kernel⟩, by decide +kernel⟩ (by decide +kernel)
    ⟨fun p hp => by
      have : p = ['-', '-'] := by
        rcases hp with hp | hp
        · cases hp
        · cases hp; rfl
      subst this
      decide +kernel, fun _ => by decide +kernel⟩
  revert this
  decide +kernel

/-- **C106 is false** after an apostrophe at the beginning of a word: it is counted as the beginning of a quotation that the
apostrophe of a plural possessive then seems to end. -/
theorem c106_after_quotation_false : ¬ ∀ (o : PunctOpts) (a b : List Char), o.curlyApostrophes = true → SpaceEnd asciiUni a b →
    NoDashes o (a ++ '\'' :: b) → (transformPunctuation asciiUni o (a ++ '\'' :: b))[a.length]? = some '’' := by
  intro h
  have := h exCurled "In the '90s the dogs".toList " day".toList rfl ⟨⟨'s', by decide +kernel, by decide +kernel⟩, by decide +kernel⟩
    ⟨fun p hp => by
      have : p = ['-', '-'] := by
        rcases hp with hp | hp
        · cases hp
        · cases hp; rfl
      subst this
      decide +kernel, fun _ => by decide +kernel⟩
  revert this
  decide +kernel

/-- The first example of STYLE.md:494-497. -/
example : transformPunctuation asciiUni { exPunct with curlyApostrophes := true } "It's a beautiful day.".toList =
    "It’s a beautiful day.".toList := by decide +kernel

/-- **C106 is false** of the second example of STYLE.md:494-497, `The '90s were great.`: with `curly_single_quotes` off it is
not changed. With `curly_single_quotes` on it is curled whether `curly_apostrophes` is on or off (`c95_year_false`). -/
theorem c106_style_false : ¬ ∀ o : PunctOpts, o.curlyApostrophes = true → o.enDash = none → o.emDash = none →
    transformPunctuation asciiUni o "The '90s were great.".toList = "The ’90s were great.".toList := by
  intro h
  have := h { exCurled with emDash := none } rfl rfl rfl
  revert this
  decide +kernel

/-- **C106 is false** of an apostrophe before a letter if another follows within fifty characters: it becomes an opening
mark. -/
theorem c106_leading_false : ¬ ∀ (o : PunctOpts) (a b : List Char), o.curlyApostrophes = true →
    (∀ c ∈ a ++ b, c.isAlpha = true ∨ c = ' ' ∨ c = '\'') → a.getLast? = some ' ' →
    (∀ i, b[i]? = some '\'' → InWord asciiUni (b.take i) (b.drop (i + 1))) →
    (transformPunctuation asciiUni o (a ++ '\'' :: b))[a.length]? ≠ some '‘' := by
  intro h
  have := h { exPunct with curlyApostrophes := true } "And ".toList "tis so isn't it".toList rfl (by decide +kernel) (by decide +kernel)
    (fun i hi => by
      have hlt : i < 15 := by
        rcases Nat.lt_or_ge i 15 with h | h
        · exact h
        · rw [List.getElem?_eq_none (by simpa using h)] at hi; cases hi
      have : i = 10 := (show ∀ i < 15, "tis so isn't it".toList[i]? = some '\'' → i = 10 by decide +kernel) i hlt hi
      subst this
      exact ⟨⟨'n', by decide +kernel, by decide +kernel⟩, 't', by decide +kernel, by decide +kernel⟩)
  revert this
  decide +kernel

example : transformPunctuation asciiUni { exPunct with curlyApostrophes := true } "The '90s were great, 'tis so, isn't it".toList =
    "The ’90s were great, ‘tis so, isn’t it".toList := by decide +kernel

end Hongdown.Props
