import Verif.Lemmas.Apostrophe
import Verif.Model.Options

/-!
# C95: apostrophes stay straight unless the option is on, and never open a quotation

The README gives `curly_apostrophes` as off by default, and CHANGES.md (0.2.2 and 0.2.6) records as
bugs that possessives after link references and after digits were curled all the same.
-/

namespace Hongdown.Props
open Model Spec

/-- **C95** (part). With `curly_apostrophes` off, an apostrophe is left as it is: between two letters,
in a possessive after a letter, an ASCII digit, a closing bracket or at the beginning of a text, and at
the end of a word if no single mark comes before it. The part that is missing: texts in which dashes or
ellipses are replaced, other characters before a possessive, and marks at the beginning of a word; the
claim is false of these, see `c95_symbol_false`, `c95_dash_false`, `c95_quoted_false` and
`c95_year_false`. -/
theorem c95_straight_partial (u : Uni) (hu : MarksNoLetters u) (hs : u.alphabetic 's' = true ∧ u.alphabetic 'S' = true)
    (o : PunctOpts) (ho : o.curlyApostrophes = false) (a b : List Char) (hd : NoDashes o (a ++ '\'' :: b))
    (h : InWord u a b ∨ Possessive u a b ∨ (WordEnd u a b ∧ '\'' ∉ a)) :
    (transformPunctuation u o (a ++ '\'' :: b))[a.length]? = some '\'' := by
  rw [quotes_only hd, ho]
  obtain ⟨a', b', e, ha, hb⟩ := double_around o.curlyDouble a b
  rw [e, pairs_length ha]
  show (stSgl u o.curlySingle (a' ++ '\'' :: b'))[a'.length]? = _
  apply single_at_kept
  rcases h with h | h | ⟨h, hq⟩
  · exact keeps_inWord (inWord_dbl hu ha hb h) _
  · exact keeps_possessive (possessive_dbl hu ha hb h) hs _
  · have hq' : '\'' ∉ a' := by
      intro hm
      obtain ⟨x, hx, hd⟩ := pairs_right ha _ hm
      rcases hd with ⟨_, e⟩ | ⟨_, e | e | e⟩
      · exact hq (e ▸ hx)
      all_goals exact absurd e (by decide +kernel)
    rw [ctxState_none _ _ _ _ hq']
    exact keeps_wordEnd (wordEnd_dbl hu ha hb h)

/-- **C95** (part). Whatever the options, a mark right after a letter never becomes an opening mark, if
a letter, an ASCII digit, white space, ASCII punctuation other than a straight double mark, or nothing
follows. -/
theorem c95_not_opening_partial (u : Uni) (hu : MarksNoLetters u) (o : PunctOpts) (a b : List Char) (x : Char)
    (hd : NoDashes o (a ++ [x] ++ '\'' :: b)) (hx : u.alphabetic x = true)
    (hb : ∀ y ∈ b.head?, u.alphabetic y = true ∨ isAsciiDigit y = true ∨ isWs y = true ∨ (isAsciiPunct y = true ∧ y ≠ '"')) :
    (transformPunctuation u o (a ++ [x] ++ '\'' :: b))[a.length + 1]? ≠ some '‘' := by
  rw [quotes_only hd]
  apply apo_not_open
  obtain ⟨a', b', e, ha, hb'⟩ := double_around o.curlyDouble (a ++ [x]) b
  have hl : a.length + 1 = a'.length := by rw [← pairs_length ha]; simp
  rw [e, hl]
  obtain ⟨x', hx', ex⟩ := pairs_last' ha x (by simp)
  have hx2 : u.alphabetic x' = true := by rw [dbl_letter hu ex, hx]
  unfold stSgl
  split
  · rw [transformSingleQuotes, ctxMap_at, show a'.getLast? = some x' from hx']
    intro he
    refine single_not_open hu hx2 ?_ (Option.some.inj he)
    intro y' hy'
    obtain ⟨y, hy, ey⟩ := pairs_head hb' y' hy'
    have h := hb y hy
    have hq : y ≠ '"' := by
      rintro rfl
      rcases h with h | h | h | h
      · rw [hu '"' (.inr (.inl (by decide +kernel)))] at h; cases h
      · exact absurd h (by decide +kernel)
      · exact absurd h (by decide +kernel)
      · exact h.2 rfl
    rw [dbl_eq ey hq]
    rcases h with h | h | h | h
    · exact .inl h
    · exact .inr (.inl h)
    · exact .inr (.inr (.inl h))
    · exact .inr (.inr (.inr h.1))
  · rw [List.getElem?_append_right (by omega), Nat.sub_self]
    simp

/-- The default settings. -/
def exPunct : PunctOpts where
  curlyDouble := true
  curlySingle := true
  curlyApostrophes := false
  ellipsis := true
  enDash := none
  emDash := some ['-', '-']

example : exPunct = defaultOptions.punct := by decide +kernel

example : transformPunctuation asciiUni exPunct "don't, [Fedify]'s, 2024's, the dogs' house".toList =
    "don't, [Fedify]'s, 2024's, the dogs' house".toList := by decide +kernel
example : InWord asciiUni "don".toList "t".toList :=
  ⟨⟨'n', by decide +kernel, by decide +kernel⟩, 't', by decide +kernel, by decide +kernel⟩
example : Possessive asciiUni "2024".toList "s end".toList :=
  ⟨⟨'s', " end".toList, by decide +kernel, by decide +kernel, by decide +kernel⟩, by decide +kernel⟩
example : WordEnd asciiUni "the dogs".toList " house".toList := ⟨⟨'s', by decide +kernel, by decide +kernel⟩, by decide +kernel⟩
/-- With the option on they are curled. -/
example : transformPunctuation asciiUni { exPunct with curlyApostrophes := true } "don't, [Fedify]'s, 2024's, the dogs' house".toList =
    "don’t, [Fedify]’s, 2024’s, the dogs’ house".toList := by decide +kernel
/-- Marks that quote are turned. -/
example : transformPunctuation asciiUni exPunct "say 'yes' now".toList = "say ‘yes’ now".toList := by decide +kernel

/-- **C95.** The general claim is false of possessives after other characters. In `C#'s great` the
apostrophe is even taken for an opening mark, with the default settings: the text becomes
`C#‘s great`. -/
theorem c95_symbol_false : ¬ ∀ a b : List Char, AfterWord a → PossessiveS asciiUni b → NoDashes exPunct (a ++ '\'' :: b) →
    (transformPunctuation asciiUni exPunct (a ++ '\'' :: b))[a.length]? = some '\'' ∨
      (transformPunctuation asciiUni exPunct (a ++ '\'' :: b))[a.length]? = some '’' := by
  intro h
  have hd : NoDashes exPunct "C#'s great".toList := by
    constructor
    · intro p hp
      have : p = ['-', '-'] := by
        rcases hp with hp | hp
        · cases hp
        · cases hp; rfl
      subst this
      decide +kernel
    · intro _; decide +kernel
  exact absurd (h "C#".toList "s great".toList ⟨'#', by decide +kernel, by decide +kernel, by decide +kernel⟩
    ⟨'s', " great".toList, by decide +kernel, by decide +kernel, by decide +kernel⟩ hd) (by decide +kernel)

example : transformPunctuation asciiUni exPunct "C#'s great, C++'s too".toList = "C#‘s great, C++’s too".toList := by decide +kernel

/-- **C95.** It is false before dashes, which are replaced first: the apostrophe of a plural possessive
before `--` becomes an opening mark. -/
theorem c95_dash_false : ¬ ∀ a b : List Char, (∀ c ∈ a ++ b, c.isAlpha = true ∨ c = ' ') →
    (∃ x ∈ a.getLast?, x.isAlpha = true) →
    (transformPunctuation asciiUni exPunct (a ++ '\'' :: "--".toList ++ b))[a.length]? ≠ some '‘' := by
  intro h
  exact absurd (h "the dogs".toList "all three".toList (by decide +kernel) ⟨'s', by decide +kernel, by decide +kernel⟩) (by decide +kernel)

example : transformPunctuation asciiUni exPunct "the dogs'--all three".toList = "the dogs‘—all three".toList := by decide +kernel
example : transformPunctuation asciiUni exPunct "goin'... now".toList = "goin‘… now".toList := by decide +kernel

/-- **C95.** It is false before a double mark, which is replaced first: at the end of what is quoted,
the apostrophe becomes an opening mark. -/
theorem c95_quoted_false : ¬ ∀ a b : List Char, (∀ c ∈ a ++ b, c.isAlpha = true ∨ c = ' ') →
    (∃ x ∈ a.getLast?, x.isAlpha = true) →
    (transformPunctuation asciiUni exPunct ('"' :: a ++ '\'' :: '"' :: b))[a.length + 1]? ≠ some '‘' := by
  intro h
  exact absurd (h "keep goin".toList " they said".toList (by decide +kernel) ⟨'n', by decide +kernel, by decide +kernel⟩) (by decide +kernel)

example : transformPunctuation asciiUni exPunct "\"keep goin'\" they said".toList = "“keep goin‘” they said".toList := by decide +kernel

/-- **C95.** It is false of apostrophes at the beginning of a word: those of `'90s` and `'tis` are
curled although `curly_apostrophes` is off. -/
theorem c95_year_false : ¬ ∀ a b : List Char, (∀ c ∈ a, c.isAlpha = true ∨ c = ' ') → a.getLast? = some ' ' →
    (∀ c ∈ b, c.isAlphanum = true) → b ≠ [] →
    (transformPunctuation asciiUni exPunct (a ++ '\'' :: b))[a.length]? = some '\'' := by
  intro h
  exact absurd (h "the ".toList "90s".toList (by decide +kernel) (by decide +kernel) (by decide +kernel) (by decide +kernel)) (by decide +kernel)

end Hongdown.Props
