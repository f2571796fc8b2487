import Verif.Spec.Directive
import Verif.Lemmas.Slice

/-!
# Directives and slices of the source: C23, C52
-/

namespace Hongdown.Props
open Model Spec

/-! ### C23: recognition of directives -/

theorem nounList_iff (args : List Char) (nouns : List (List Char)) :
    NounList args nouns ↔ nouns = directiveNouns args := by
  constructor
  · rintro ⟨parts, h0, hc, rfl, rfl⟩
    rw [directiveNouns, splitOn_join h0 hc]
  · rintro rfl
    exact ⟨splitOn ',' args, splitOn_ne_nil _ _, splitOn_not_mem _ _, (join_splitOn _ _).symm, rfl⟩

theorem says_iff (body : List Char) (d : Directive) :
    Says body d ↔ directiveOfContent body = some d := by
  constructor
  · rintro (_ | _ | _ | _ | _ | ⟨args, nouns, h⟩ | ⟨args, nouns, h⟩)
    · decide +kernel
    · decide +kernel
    · decide +kernel
    · decide +kernel
    · decide +kernel
    · rw [(nounList_iff _ _).mp h]
      rfl
    · rw [(nounList_iff _ _).mp h]
      rfl
  · intro h
    unfold directiveOfContent at h
    split at h
    · rename_i hb; rw [hb]; simp only [Option.some.injEq] at h; subst h; exact .disableNextLine
    split at h
    · rename_i hb; rw [hb]; simp only [Option.some.injEq] at h; subst h; exact .disableFile
    split at h
    · rename_i hb; rw [hb]; simp only [Option.some.injEq] at h; subst h; exact .disableNextSection
    split at h
    · rename_i hb; rw [hb]; simp only [Option.some.injEq] at h; subst h; exact .disable
    split at h
    · rename_i hb; rw [hb]; simp only [Option.some.injEq] at h; subst h; exact .enable
    split at h
    · rename_i args hb
      rw [stripPrefix?_iff.mp hb]
      simp only [Option.some.injEq] at h; subst h
      exact .properNouns _ _ ((nounList_iff _ _).mpr rfl)
    split at h
    · rename_i args hb
      rw [stripPrefix?_iff.mp hb]
      simp only [Option.some.injEq] at h; subst h
      exact .commonNouns _ _ ((nounList_iff _ _).mpr rfl)
    · exact absurd h (by simp)

/-- **C23.** A text is read as a directive exactly if it is, apart from white space around it,
one HTML comment whose body says so. -/
theorem c23_parse (html : List Char) (d : Directive) :
    parseDirective html = some d ↔
      ∃ body, trim html = "<!--".toList ++ body ++ "-->".toList ∧ Says (trim body) d := by
  simp only [says_iff]
  unfold parseDirective
  generalize "<!--".toList = o
  generalize "-->".toList = c
  cases h1 : stripPrefix? o (trim html) with
  | none =>
    simp only [reduceCtorEq, false_iff, not_exists, not_and]
    rintro body h
    rw [h, List.append_assoc, stripPrefix?_iff.mpr rfl] at h1
    exact absurd h1 (by simp)
  | some r =>
    have hr := stripPrefix?_iff.mp h1
    cases h2 : stripSuffix? c r with
    | none =>
      simp only [h2, reduceCtorEq, false_iff, not_exists, not_and]
      rintro body h
      rw [hr, List.append_assoc] at h
      rw [List.append_cancel_left h, stripSuffix?_iff.mpr rfl] at h2
      exact absurd h2 (by simp)
    | some content =>
      simp only [h2]
      have hc := stripSuffix?_iff.mp h2
      constructor
      · intro h; exact ⟨content, by rw [hr, hc, List.append_assoc], h⟩
      · rintro ⟨body, h, hb⟩
        rw [hr, hc, List.append_assoc] at h
        rw [List.append_cancel_right (List.append_cancel_left h)]
        exact hb

/-- **C23.** No text is read as two different directives. -/
theorem c23_unique {body : List Char} {d d' : Directive} (h : Says body d) (h' : Says body d') :
    d = d' := by
  rw [says_iff] at h h'
  rw [h] at h'
  simpa using h'

example : parseDirective " <!-- hongdown-proper-nouns: Swift, Go ,, -->\n".toList =
    some (.properNouns ["Swift".toList, "Go".toList]) := by decide +kernel
example : parseDirective "<!--hongdown-disable-file-->".toList = some .disableFile := by
  decide +kernel
example : parseDirective "<!-- hongdown-disable-file now -->".toList = none ∧
    parseDirective "<!-->".toList = none := by decide +kernel

/-! ### C52: slices -/

/-- **C52.** With `start ≤ e` the slice does not panic. It is the least run of whole
characters that covers the bytes from `start` up to `e`. -/
theorem c52_slice (s : List Char) (start e : Nat) (h : start ≤ e) :
    ∃ a r b, safeStrSlice s start e = some r ∧ s = a ++ r ++ b ∧
      byteLen a ≤ start ∧ (∀ x y, s = x ++ y → byteLen x ≤ start → byteLen x ≤ byteLen a) ∧
      (e ≤ byteLen (a ++ r) ∨ b = []) ∧
      (∀ x y, s = x ++ y → e ≤ byteLen x → byteLen (a ++ r) ≤ byteLen x) := by
  obtain ⟨a1, a2, a3⟩ := safeStart_spec s start
  obtain ⟨b1, b2, b3⟩ := safeEnd_spec s e
  have hle : safeStart s start ≤ safeEnd s e := by
    rcases b2 with b2 | b2
    · omega
    · rw [b2]; exact isBoundary_le a1
  have hs : ∃ r, safeStrSlice s start e = some r := by
    rw [safeStrSlice, byteSlice, if_pos (by simp [hle, a1, b1])]
    exact ⟨_, rfl⟩
  obtain ⟨r, hr⟩ := hs
  obtain ⟨a, b, h1, h2, h3⟩ := byteSlice_some hr
  refine ⟨a, r, b, hr, h1, by omega, fun x y hx hl => ?_, ?_, fun x y hx hl => ?_⟩
  · rw [h2]; exact a3 _ (isBoundary_iff.mpr ⟨x, y, hx, rfl⟩) hl
  · rcases b2 with b2 | b2
    · left; omega
    · right
      rw [h1, byteLen_append (a ++ r)] at b2
      cases b with
      | nil => rfl
      | cons c b => have := utf8Len_pos c; rw [byteLen_cons] at b2; rw [← h1] at b2; omega
  · rw [h3]; exact b3 _ (isBoundary_iff.mpr ⟨x, y, hx, rfl⟩) hl

/-- **C52.** At character boundaries the slice is exact. -/
theorem c52_exact (a r b : List Char) :
    safeStrSlice (a ++ r ++ b) (byteLen a) (byteLen (a ++ r)) = some r := by
  have h1 : safeStart (a ++ r ++ b) (byteLen a) = byteLen a := by
    obtain ⟨_, h2, h3⟩ := safeStart_spec (a ++ r ++ b) (byteLen a)
    have := h3 _ (isBoundary_iff.mpr ⟨a, r ++ b, by simp, rfl⟩) (Nat.le_refl _)
    omega
  have h2 : safeEnd (a ++ r ++ b) (byteLen (a ++ r)) = byteLen (a ++ r) := by
    obtain ⟨_, h2, h3⟩ := safeEnd_spec (a ++ r ++ b) (byteLen (a ++ r))
    have := h3 _ (isBoundary_iff.mpr ⟨a ++ r, b, rfl, rfl⟩) (Nat.le_refl _)
    rcases h2 with h2 | h2
    · omega
    · rw [byteLen_append (a ++ r) b] at h2; omega
  rw [safeStrSlice, h1, h2, byteSlice_append]

/-- **C52.** The hypothesis `start ≤ e` is needed: with the offsets the wrong way round, more
than a character apart, the slice panics. -/
theorem c52_reversed : safeStrSlice "ab".toList 2 1 = none ∧
    safeStrSlice "é".toList 2 1 = some [] := by decide +kernel

example : safeStrSlice "añb".toList 2 3 = some "ñ".toList ∧
    safeStrSlice "añb".toList 1 2 = some "ñ".toList ∧
    safeStrSlice "añb".toList 3 9 = some "b".toList ∧
    safeStrSlice "añb".toList 9 9 = some [] := by decide +kernel

end Hongdown.Props
