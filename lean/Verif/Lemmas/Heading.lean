import Verif.Spec.Heading
import Verif.Lemmas.Str
import Verif.Lemmas.Slice

/-!
# Sentence case
-/

namespace Hongdown
open Model Spec

theorem foldCase_nil (f : Char → List Char) : foldCase f [] = [] := rfl

theorem foldCase_append (f : Char → List Char) (a b : List Char) : foldCase f (a ++ b) = foldCase f a ++ foldCase f b := by
  simp [foldCase]

theorem foldCase_cons (f : Char → List Char) (c : Char) (s : List Char) : foldCase f (c :: s) = f c ++ foldCase f s := by
  simp [foldCase]

/-! ### Words -/

theorem letterPeriod_iff (u : Uni) : ∀ w : List Char, letterPeriod u w = true ↔
    ∃ x c y, w = x ++ c :: '.' :: y ∧ u.alphabetic c = true
  | [] => by simp [letterPeriod]
  | [a] => by
    simp only [letterPeriod, Bool.false_eq_true, false_iff]
    rintro ⟨x, c, y, h, _⟩
    have := congrArg List.length h
    simp at this
    omega
  | a :: b :: w => by
    rw [letterPeriod, Bool.or_eq_true, letterPeriod_iff u (b :: w), Bool.and_eq_true, decide_eq_true_eq]
    constructor
    · rintro (⟨h, rfl⟩ | ⟨x, c, y, h, hc⟩)
      · exact ⟨[], a, w, rfl, h⟩
      · exact ⟨a :: x, c, y, by rw [h]; rfl, hc⟩
    · rintro ⟨x, c, y, h, hc⟩
      cases x with
      | nil =>
        simp only [List.nil_append, List.cons.injEq] at h
        obtain ⟨rfl, rfl, rfl⟩ := h
        exact .inl ⟨hc, rfl⟩
      | cons z x =>
        simp only [List.cons_append, List.cons.injEq] at h
        exact .inr ⟨x, c, y, h.2, hc⟩

theorem isAcronym_iff (u : Uni) (w : List Char) : isAcronym u w = true ↔ Acronym u w := by
  unfold isAcronym Acronym Capital
  split
  · rename_i a b rest
    simp only [Bool.or_eq_true, Bool.and_eq_true, letterPeriod_iff, decide_eq_true_eq, List.any_eq_true]
    constructor
    · rintro (⟨⟨⟨h1, h2⟩, h3⟩, h4⟩ | ⟨⟨h1, h2⟩, c, hc, h3, h4⟩)
      · exact .inl ⟨a, b, rest, rfl, ⟨h1, h2⟩, h3, h4⟩
      · exact .inr ⟨h1, ⟨c, hc, h4, h3⟩, h2⟩
    · rintro (⟨a', b', rest', h, ⟨h1, h2⟩, h3, h4⟩ | ⟨h1, ⟨c, hc, h4, h3⟩, h2⟩)
      · simp only [List.cons.injEq] at h
        obtain ⟨rfl, rfl, rfl⟩ := h
        exact .inl ⟨⟨⟨h1, h2⟩, h3⟩, h4⟩
      · exact .inr ⟨⟨h1, h2⟩, c, hc, h3, h4⟩
  · rename_i h
    simp only [Bool.false_eq_true, false_iff]
    rintro (⟨a, b, rest, rfl, _⟩ | ⟨⟨x, c, y, rfl, _⟩, _⟩)
    · exact h _ _ _ rfl
    · cases x with
      | nil => exact h _ _ _ rfl
      | cons z x => cases x <;> exact h _ _ _ rfl

theorem allCaps_iff (u : Uni) (w : List Char) :
    (w.filter u.alphabetic ≠ [] ∧ (w.filter u.alphabetic).all u.uppercase = true) ↔ AllCaps u w := by
  unfold AllCaps
  simp only [ne_eq, List.filter_eq_nil_iff, List.all_eq_true, List.mem_filter]
  constructor
  · rintro ⟨h1, h2⟩
    refine ⟨?_, fun c hc ha => h2 c ⟨hc, ha⟩⟩
    apply Classical.byContradiction
    intro h
    exact h1 fun c hc ha => h ⟨c, hc, ha⟩
  · rintro ⟨⟨c, hc, ha⟩, h2⟩
    exact ⟨fun h => h c hc ha, fun c hc => h2 c hc.1 hc.2⟩

theorem pronounI_none {w : List Char} (h : ¬ Pronoun w) : pronounI w = none := by
  unfold pronounI
  split
  · rename_i c
    rw [if_neg]
    exact fun hc => h ⟨c, [], rfl, hc, .inl rfl⟩
  · rename_i c q rest
    rw [if_neg]
    rintro ⟨hc, hq⟩
    exact h ⟨c, q :: rest, rfl, hc, .inr (by simpa using hq)⟩
  · rfl

/-- The parts of a dressed word. -/
theorem findProperNoun_dressed {u : Uni} {n : Nouns} {word lead core trail : List Char}
    (h : Dressed u word lead core trail) : findProperNoun u n word =
      if n.common.any (fun c => u.strLower c = u.strLower core) then none
      else match n.proper.find? (fun p => u.strLower p = u.strLower core) with
        | some p => some (lead ++ p ++ trail)
        | none => match n.builtin.find? (fun p => p.2 = u.strLower core) with
          | some p => some (lead ++ p.1 ++ trail)
          | none => none := by
  obtain ⟨rfl, hl, ⟨c, hc, hc'⟩, ⟨e, he, he'⟩, ⟨a, ha, ha'⟩, punct, own, rfl, hp, ho⟩ := h
  obtain ⟨core', rfl⟩ : ∃ t, core = c :: t := by
    cases core with
    | nil => simp at hc
    | cons x t => simp at hc; exact ⟨t, by rw [hc]⟩
  have hstop : (fun c => !(u.alphanumeric c || decide (c = '@'))) c = false := by
    rcases hc' with h | h <;> simp [h]
  have e1 : (lead ++ c :: core' ++ (punct ++ own)).takeWhile (fun c => !(u.alphanumeric c || decide (c = '@'))) = lead := by
    rw [List.append_assoc, List.takeWhile_append_of_pos, List.cons_append, List.takeWhile_cons_of_neg (by simp [hstop]),
      List.append_nil]
    intro x hx
    simp [hl x hx]
  have e2 : (lead ++ c :: core' ++ (punct ++ own)).dropWhile (fun c => !(u.alphanumeric c || decide (c = '@'))) =
      c :: core' ++ (punct ++ own) := by
    rw [List.append_assoc, List.dropWhile_append_of_pos, List.cons_append, List.dropWhile_cons_of_neg (by simp [hstop])]
    intro x hx
    simp [hl x hx]
  generalize hcore : c :: core' = core at *
  have e3 : possessive (core ++ (punct ++ own)) = (core ++ punct, own) := by
    rw [← List.append_assoc]
    unfold possessive
    rcases ho with rfl | rfl | ⟨rfl, h1, h2⟩
    · rw [stripSuffix?_iff.2 rfl]
    · have : stripSuffix? ['\'', 's'] (core ++ punct ++ ['’', 's']) = none := by
        cases h : stripSuffix? ['\'', 's'] (core ++ punct ++ ['’', 's']) with
        | none => rfl
        | some r =>
          exact absurd (List.append_inj_right' (stripSuffix?_iff.1 h) rfl) (by decide)
      rw [this, stripSuffix?_iff.2 rfl]
    · have g : ∀ p : List Char, ¬ p <:+ core ++ punct → stripSuffix? p (core ++ punct ++ []) = none := by
        intro p hp
        cases h : stripSuffix? p (core ++ punct ++ []) with
        | none => rfl
        | some r =>
          have := stripSuffix?_iff.1 h
          rw [List.append_nil] at this
          exact absurd ⟨r, this.symm⟩ hp
      rw [g _ h1, g _ h2, List.append_nil]
  have e4 : ((core ++ punct).reverse.dropWhile fun c => !u.alphanumeric c).reverse = core := by
    obtain ⟨pre, hpre⟩ : ∃ t, core = t ++ [e] := by
      rw [List.getLast?_eq_some_iff] at he
      exact he
    rw [List.reverse_append, List.dropWhile_append_of_pos (by intro x hx; simp [hp x (by simpa using hx)]), hpre,
      List.reverse_append, List.reverse_singleton, List.singleton_append, List.dropWhile_cons_of_neg (by simp [he'])]
    simp
  unfold findProperNoun
  simp only [e1, e2, e3, e4, List.drop_left]
  rw [if_neg]
  · simp only [List.append_assoc]
    rfl
  · have : core ≠ [] := by rw [← hcore]; simp
    simp only [this, false_or]
    simp only [Bool.not_eq_false, List.any_eq_true]
    exact ⟨a, ha, ha'⟩

/-! ### Case folding of words -/

section
variable {u : Uni} {f : Char → List Char} (hf : LetterFold u f)
include hf

theorem foldCase_mark (s : List Char) : '�' ∈ foldCase f s ↔ '�' ∈ s := by
  simp [foldCase, hf.mark]

theorem foldCase_space (s : List Char) : ' ' ∈ foldCase f s ↔ ' ' ∈ s := by
  simp [foldCase, hf.space]

theorem foldCase_mapLower (s : List Char) : foldCase f (s.map Char.toLower) = foldCase f s := by
  induction s with
  | nil => rfl
  | cons c s ih => rw [List.map_cons, foldCase_cons, foldCase_cons, ih, hf.ascii]

theorem foldCase_pronounI {w r : List Char} (h : pronounI w = some r) : foldCase f r = foldCase f w := by
  have hI : f 'I' = f 'i' := (hf.ascii 'I').symm
  unfold pronounI at h
  split at h
  · rename_i c
    split at h
    · rename_i hc
      cases h
      rcases hc with rfl | rfl
      · rw [foldCase_cons, foldCase_cons, hI]
      · rfl
    · cases h
  · rename_i c q rest
    split at h
    · rename_i hc
      cases h
      rw [foldCase_cons, foldCase_cons, foldCase_cons, foldCase_cons, foldCase_mapLower hf]
      rcases hc.1 with rfl | rfl
      · rw [hI]
      · rfl
    · cases h
  · cases h

theorem foldCase_of_lower {a b : List Char} (h : u.strLower a = u.strLower b) : foldCase f a = foldCase f b := by
  rw [← hf.lower a, h, hf.lower]

theorem foldCase_noun {n : Nouns} (hn : NounsOk f n) {w r : List Char} (h : findProperNoun u n w = some r) :
    foldCase f r = foldCase f w := by
  unfold findProperNoun at h
  generalize hstop : (fun c => u.alphanumeric c || decide (c = '@')) = stop at h
  simp only at h
  have e0 : w = w.takeWhile (fun c => !stop c) ++ w.dropWhile (fun c => !stop c) :=
    (List.takeWhile_append_dropWhile ..).symm
  generalize w.takeWhile (fun c => !stop c) = lead at h e0
  generalize w.dropWhile (fun c => !stop c) = bare at h e0
  have e1 : bare = (possessive bare).1 ++ (possessive bare).2 := by
    unfold possessive
    split
    · rename_i h; exact stripSuffix?_iff.1 h
    · split
      · rename_i h; exact stripSuffix?_iff.1 h
      · simp
  generalize possessive bare = cp at h e1
  have e2 : cp.1 = (cp.1.reverse.dropWhile fun c => !u.alphanumeric c).reverse ++
      cp.1.drop (cp.1.reverse.dropWhile fun c => !u.alphanumeric c).reverse.length := by
    have e : cp.1 = (cp.1.reverse.dropWhile fun c => !u.alphanumeric c).reverse ++
        (cp.1.reverse.takeWhile fun c => !u.alphanumeric c).reverse := by
      rw [← List.reverse_append, List.takeWhile_append_dropWhile, List.reverse_reverse]
    generalize (cp.1.reverse.dropWhile fun c => !u.alphanumeric c).reverse = a at e
    generalize (cp.1.reverse.takeWhile fun c => !u.alphanumeric c).reverse = b at e
    rw [e, List.drop_left]
  generalize (cp.1.reverse.dropWhile fun c => !u.alphanumeric c).reverse = core at h e2
  generalize cp.1.drop core.length = trail at h e2
  have hw : w = lead ++ core ++ trail ++ cp.2 := by
    rw [e0, e1, e2]; simp
  split at h
  · cases h
  split at h
  · cases h
  have key : ∀ p : List Char, foldCase f p = foldCase f core → r = lead ++ p ++ trail ++ cp.2 → foldCase f r = foldCase f w := by
    intro p hp hr
    rw [hr, hw]
    simp only [foldCase_append, hp]
  split at h
  · rename_i p hp
    refine key p ?_ (by simpa using h.symm)
    have := List.find?_some hp
    exact foldCase_of_lower hf (by simpa using this)
  · split at h
    · rename_i p hp
      refine key p.1 ?_ (by simpa using h.symm)
      have h1 := List.find?_some hp
      rw [hn.key p (List.mem_of_find?_eq_some hp), show p.2 = u.strLower core by simpa using h1, hf.lower]
    · cases h

theorem foldCase_capitalize {w : List Char} (hd : 'ı' ∉ w) : foldCase f (capitalizeFirst u w) = foldCase f w := by
  cases w with
  | nil => rfl
  | cons c w =>
    rw [capitalizeFirst, foldCase_append, foldCase_cons, hf.lower, hf.upper]
    rintro rfl
    simp at hd

theorem foldCase_wordSimple {n : Nouns} (hn : NounsOk f n) (w : List Char) (first : Bool) (hd : 'ı' ∉ w) :
    foldCase f (processWordSimple u n w first) = foldCase f w := by
  unfold processWordSimple
  split
  · rename_i h; rw [h]
  split
  · rfl
  split
  · rfl
  split
  · rfl
  split
  · rename_i h; exact foldCase_pronounI hf h
  split
  · rename_i h; exact foldCase_noun hf hn h
  split
  · exact foldCase_capitalize hf hd
  · exact hf.lower w

end

end Hongdown
