import Verif.Lemmas.SingleQuotes
import Verif.Props.Curled

/-!
# C107: single quotations are curled

STYLE.md:478-483: "Straight single quotes (`'`) used as quotation marks are converted to curly single quotes".
-/

namespace Hongdown.Props
open Model Spec

/-- **C107 (partial).** Full statement: without the bound on the length and without the conditions on what is quoted, see
`c107_long_false`, `c107_digit_false` and `c107_inner_false`. Two marks that quote fewer than fifty characters become an opening
and a closing mark, whatever the other settings and the text around them; dashes and ellipses are left out, as in C95. -/
theorem c107_quotation_partial (u : Uni) (hu : MarksNoLetters u) (o : PunctOpts) (ho : o.curlySingle = true)
    (a w b : List Char) (hd : NoDashes o (a ++ '\'' :: (w ++ '\'' :: b))) (h : SingleQuotation u a w b) (hl : w.length < 50) :
    (transformPunctuation u o (a ++ '\'' :: (w ++ '\'' :: b)))[a.length]? = some '‘' ∧
      (transformPunctuation u o (a ++ '\'' :: (w ++ '\'' :: b)))[a.length + 1 + w.length]? = some '’' := by
  rw [quotes_only hd, ho]
  obtain ⟨a', t', e, hpa, hpt⟩ := double_around o.curlyDouble a (w ++ '\'' :: b)
  obtain ⟨w', t2, rfl, hpw, hpt2⟩ := pairs_split hpt
  match t2, hpt2 with
  | m :: b', hpb =>
    have hm : m = '\'' := dbl_eq hpb.1 (by decide)
    subst hm
    have h' : SingleQuotation u a' w' b' := by
      obtain ⟨y, hy, hy1, hy2⟩ := h.first
      obtain ⟨x, hx, hx1, hx2⟩ := h.last
      obtain ⟨y', hy', e1⟩ := pairs_head' hpw y hy
      obtain ⟨x', hx', e2⟩ := pairs_last' hpw x hx
      have ey : y' = y := dbl_eq e1 (by rintro rfl; rw [hu '"' (.inr (.inl (by decide +kernel)))] at hy1; cases hy1)
      have ex : x' = x := dbl_eq e2 (by rintro rfl; exact hx2 (by decide))
      subst ey; subst ex
      refine ⟨?_, ⟨y', hy', hy1, hy2⟩, ⟨x', hx', hx1, hx2⟩, ?_, ?_, onlyInWord_dbl hu hpa h.others.1, onlyInWord_dbl hu hpw h.others.2⟩
      · intro z' hz'
        obtain ⟨z, hz, e⟩ := pairs_last hpa z' hz'
        have hz := h.before z hz
        rw [dbl_eq e (by rintro rfl; exact absurd hz (by decide +kernel))]
        exact hz
      · intro z' hz'
        obtain ⟨z, hz, e⟩ := pairs_head hpb.2 z' hz'
        have hz := h.after z hz
        rw [dbl_eq e (by rintro rfl; exact absurd hz (by decide +kernel))]
        exact hz
      · rintro rfl ⟨s, r, es, hs, hr⟩
        have ha0 : a = [] := by have := pairs_length hpa; simpa using this
        apply h.noS ha0
        match hv : w ++ '\'' :: b, hpt with
        | [], hp => rw [es] at hp; exact hp.elim
        | c :: r0, hp =>
          rw [es] at hp
          have hc : c = s := by
            rcases hp.1 with ⟨_, e⟩ | ⟨_, e | e | e⟩
            · exact e.symm
            all_goals rcases hs with rfl | rfl <;> exact absurd e (by decide)
          refine ⟨c, r0, rfl, hc ▸ hs, fun d hd => ?_⟩
          obtain ⟨d', hd', ed⟩ := pairs_head' hp.2 d hd
          rw [← dbl_letter hu ed]
          exact hr d' hd'
    have key := single_quotation hu h' (by rw [← pairs_length hpw]; exact hl)
    rw [e, pairs_length hpa, pairs_length hpw]
    exact ⟨apo_other (by decide) key.1, apo_other (by decide) key.2⟩

theorem split_at_unique : ∀ {p0 q0 p q : List Char}, '\'' ∉ p0 → '\'' ∉ q0 → p0 ++ '\'' :: q0 = p ++ '\'' :: q → p = p0 ∧ q = q0
  | [], q0, [], q, _, _, e => ⟨rfl, by injection e with _ e; exact e.symm⟩
  | [], q0, c :: p, q, _, h, e => by
    injection e with _ e
    exact absurd (by rw [show q0 = p ++ '\'' :: q from e]; simp) h
  | c :: p0, q0, [], q, h, _, e => by
    injection e with e _
    exact absurd (by rw [show c = '\'' from e]; simp) h
  | c :: p0, q0, d :: p, q, h, h', e => by
    injection e with e1 e2
    obtain ⟨r1, r2⟩ := split_at_unique (fun hm => h (List.mem_cons_of_mem _ hm)) h' e2
    exact ⟨by rw [r1, e1], r2⟩

theorem onlyInWord_none {u : Uni} {s : List Char} (h : '\'' ∉ s) : OnlyInWord u s :=
  fun p q e => absurd (by rw [e]; simp) h

/-- STYLE.md:482. -/
example : transformPunctuation asciiUni exPunct "She said 'hello' to him.".toList = "She said ‘hello’ to him.".toList := by decide +kernel
example : SingleQuotation asciiUni "She said ".toList "hello".toList " to him.".toList where
  before := by decide +kernel
  first := ⟨'h', by decide +kernel, by decide +kernel, by decide +kernel⟩
  last := ⟨'o', by decide +kernel, by decide +kernel, by decide +kernel⟩
  after := by decide +kernel
  noS h := absurd h (by decide)
  others := ⟨onlyInWord_none (by decide +kernel), onlyInWord_none (by decide +kernel)⟩
/-- Apostrophes of words may be around and inside. -/
example : SingleQuotation asciiUni "I don't say ".toList "it isn't".toList "".toList where
  before := by decide +kernel
  first := ⟨'i', by decide +kernel, by decide +kernel, by decide +kernel⟩
  last := ⟨'t', by decide +kernel, by decide +kernel, by decide +kernel⟩
  after := by decide +kernel
  noS h := absurd h (by decide)
  others := by
    constructor
    · intro p q e
      obtain ⟨rfl, rfl⟩ := split_at_unique (p0 := "I don".toList) (q0 := "t say ".toList) (by decide +kernel) (by decide +kernel) e
      exact ⟨⟨'n', by decide +kernel, by decide +kernel⟩, 't', by decide +kernel, by decide +kernel⟩
    · intro p q e
      obtain ⟨rfl, rfl⟩ := split_at_unique (p0 := "it isn".toList) (q0 := "t".toList) (by decide +kernel) (by decide +kernel) e
      exact ⟨⟨'n', by decide +kernel, by decide +kernel⟩, 't', by decide +kernel, by decide +kernel⟩
example : transformPunctuation asciiUni exPunct "I don't say 'it isn't'".toList = "I don't say ‘it isn't’".toList := by decide +kernel
example : transformPunctuation asciiUni exPunct "('Yes, \"it\" is.'), don't".toList = "(‘Yes, “it” is.’), don't".toList := by decide +kernel

theorem exPunct_noDashes {s : List Char} (h : ¬ ['-', '-'] <:+: s) (h' : ¬ ['.', '.', '.'] <:+: s) : NoDashes exPunct s :=
  ⟨fun p hp => by
    have : p = ['-', '-'] := by
      rcases hp with hp | hp
      · cases hp
      · cases hp; rfl
    subst this
    exact h, fun _ => h'⟩

/-- A quotation of ten words. -/
def exLong : List Char := "every file that is found is read and written to the same place".toList

/-- **C107 is false** of quotations of fifty characters or more: only so many are searched for the second mark
(src/serializer/punctuation.rs:260-263), and the first is taken for an apostrophe and made a closing mark. The second is then
left straight, as an apostrophe. -/
theorem c107_long_false : ¬ ∀ a w b : List Char, SingleQuotation asciiUni a w b →
    NoDashes exPunct (a ++ '\'' :: (w ++ '\'' :: b)) →
    (transformPunctuation asciiUni exPunct (a ++ '\'' :: (w ++ '\'' :: b)))[a.length]? = some '‘' := by
  intro h
  have := h "It says ".toList exLong ".".toList
    { before := by decide +kernel
      first := ⟨'e', by decide +kernel, by decide +kernel, by decide +kernel⟩
      last := ⟨'e', by decide +kernel, by decide +kernel, by decide +kernel⟩
      after := by decide +kernel
      noS := fun h => absurd h (by decide)
      others := ⟨onlyInWord_none (by decide +kernel), onlyInWord_none (by decide +kernel)⟩ } (exPunct_noDashes (by decide +kernel) (by decide +kernel))
  revert this
  decide +kernel

example : transformPunctuation asciiUni exPunct ("It says '".toList ++ exLong ++ "'.".toList) =
    "It says ’every file that is found is read and written to the same place'.".toList := by decide +kernel

/-- **C107 is false** of quotations that begin with a digit: the first mark is taken for that of `'90s`. -/
theorem c107_digit_false : ¬ ∀ w : List Char, (∀ c ∈ w, c.isAlphanum = true ∨ c = ' ') → w.length < 50 →
    (∃ x ∈ w.head?, x.isAlphanum = true) → (∃ x ∈ w.getLast?, x.isAlphanum = true) →
    (transformPunctuation asciiUni exPunct ("She said '".toList ++ w ++ "' now".toList))[9]? = some '‘' := by
  intro h
  have := h "2 of them".toList (by decide +kernel) (by decide +kernel) ⟨'2', by decide +kernel, by decide +kernel⟩
    ⟨'m', by decide +kernel, by decide +kernel⟩
  revert this
  decide +kernel

example : transformPunctuation asciiUni exPunct "She said '2 of them' now".toList = "She said ’2 of them' now".toList := by decide +kernel

/-- **C107 is false** of quotations with the apostrophe of a plural in them, which is taken for their end; the mark at the
end is then left straight. -/
theorem c107_inner_false : ¬ ∀ w v b : List Char, (∀ c ∈ w ++ v ++ b, c.isAlpha = true ∨ c = ' ') → (w ++ v).length < 50 →
    (∃ x ∈ w.head?, x.isAlpha = true) → w.getLast? = some 's' → (∃ x ∈ v.getLast?, x.isAlpha = true) →
    (transformPunctuation asciiUni exPunct ('\'' :: w ++ "' ".toList ++ v ++ '\'' :: ' ' :: b))[w.length + v.length + 3]? ≠
      some '\'' := by
  intro h
  have := h "the dogs".toList "house".toList "now".toList (by decide +kernel) (by decide +kernel)
    ⟨'t', by decide +kernel, by decide +kernel⟩ (by decide +kernel) ⟨'e', by decide +kernel, by decide +kernel⟩
  revert this
  decide +kernel

example : transformPunctuation asciiUni exPunct "'the dogs' house' now".toList = "‘the dogs’ house' now".toList := by decide +kernel

end Hongdown.Props
