import Verif.Lemmas.Source
import Verif.Props.Code

/-!
# The source text of a node: C75
-/

namespace Hongdown.Props
open Model Spec

/-- **C75.** The source text between two places is what stands between them, on one line or on
several. -/
theorem c75_extract (cx : Cx) (before text after : List Char) (h0 : cx.sourceLines ≠ [])
    (hl : ∀ l ∈ cx.sourceLines, '\n' ∉ l)
    (h : joinWith ['\n'] cx.sourceLines = before ++ text ++ after) :
    extractSource cx ⟨lineAfter before, bytesAfter before + 1, lineAfter (before ++ text),
      bytesAfter (before ++ text)⟩ = some text := by
  have hs : cx.sourceLines = splitOn '\n' (before ++ text ++ after) := by rw [← h, splitOn_join h0 hl]
  obtain ⟨as, a, rfl, ha, has⟩ := exists_flat before
  obtain ⟨ts, l, rfl, hl', hts⟩ := exists_flat text
  obtain ⟨b, bs, hb⟩ : ∃ b bs, splitOn '\n' after = b :: bs := by
    cases e : splitOn '\n' after with
    | nil => exact absurd e (splitOn_ne_nil _ _)
    | cons b bs => exact ⟨b, bs, rfl⟩
  rw [lineAfter_flat ha has, bytesAfter_flat ha]
  cases ts with
  | nil =>
    have e : flat as ++ a ++ (flat [] ++ l) = flat as ++ (a ++ l) := by simp [flat]
    have hal : '\n' ∉ a ++ l := by simp [ha, hl']
    rw [e, lineAfter_flat hal has, bytesAfter_flat hal]
    refine extract_one cx as bs a l b ?_
    rw [hs, e, List.append_assoc, splitOn_flat has, splitOn_front hal hb]
  | cons f ms =>
    have hf : '\n' ∉ a ++ f := by simp [ha, hts f (by simp)]
    have hms : ∀ x ∈ ms, '\n' ∉ x := fun x hx => hts x (by simp [hx])
    have e : flat as ++ a ++ (flat (f :: ms) ++ l) = flat (as ++ (a ++ f) :: ms) ++ l := by
      simp [flat_cons, flat_append]
    have hall : ∀ x ∈ as ++ (a ++ f) :: ms, '\n' ∉ x := by
      intro x hx
      simp only [List.mem_append, List.mem_cons] at hx
      rcases hx with hx | rfl | hx
      · exact has x hx
      · simpa using hf
      · exact hms x hx
    rw [e, lineAfter_flat hl' hall, bytesAfter_flat hl']
    have := extract_many cx as ms bs a f l b (by
      rw [hs, e, List.append_assoc, splitOn_flat hall, splitOn_front hl' hb]; simp)
    rw [show 1 + (as ++ (a ++ f) :: ms).length = 1 + (as.length + 1 + ms.length) by simp; omega, this]
    congr 1
    rw [← join_splitOn '\n' (flat (f :: ms) ++ l), splitOn_flat hts, splitOn_of_not_mem hl']
    rfl

/-- **C75.** From a line on, the source text is the rest of the text. -/
theorem c75_rest (cx : Cx) (before rest : List Char) (h0 : cx.sourceLines ≠ [])
    (hl : ∀ l ∈ cx.sourceLines, '\n' ∉ l) (hb : before = [] ∨ before.getLast? = some '\n')
    (h : joinWith ['\n'] cx.sourceLines = before ++ rest) :
    extractSourceFromLine cx (lineAfter before) =
      some (rest ++ if cx.sourceEndsWithNewline then ['\n'] else []) := by
  have hs : cx.sourceLines = splitOn '\n' (before ++ rest) := by rw [← h, splitOn_join h0 hl]
  obtain ⟨as, a, rfl, ha, has⟩ := exists_flat before
  have : a = [] := by
    rcases hb with hb | hb
    · simp at hb; exact hb.2
    · cases a.eq_nil_or_concat with
      | inl h => exact h
      | inr h =>
        obtain ⟨x, c, rfl⟩ := h
        simp at hb
        subst hb
        simp at ha
  subst this
  rw [List.append_nil] at hs h ⊢
  have e := lineAfter_flat (l := []) (by simp) has
  rw [List.append_nil] at e
  rw [splitOn_flat has] at hs
  have hpos : 0 < (splitOn '\n' rest).length := by
    cases e : splitOn '\n' rest with
    | nil => exact absurd e (splitOn_ne_nil _ _)
    | cons b bs => simp
  rw [extractSourceFromLine, if_neg (by simp [h0, e]), if_neg (by rw [hs, e, List.length_append]; omega),
    e, hs, Nat.add_sub_cancel_left, List.drop_left, join_splitOn]

example : extractSource { codeCx with sourceLines := ["a *é".toList, "".toList, "b* c".toList] } ⟨1, 3, 3, 2⟩ =
    some "*é\n\nb*".toList :=
  c75_extract { codeCx with sourceLines := ["a *é".toList, "".toList, "b* c".toList] } "a ".toList "*é\n\nb*".toList
    " c".toList (by decide) (by decide) (by decide)

example : extractSourceFromLine { codeCx with sourceLines := ["a".toList, "".toList, "b".toList], sourceEndsWithNewline := true } 2 =
    some "\nb\n".toList :=
  c75_rest { codeCx with sourceLines := ["a".toList, "".toList, "b".toList], sourceEndsWithNewline := true } "a\n".toList "\nb".toList
    (by decide) (by decide) (.inr (by decide)) (by decide)

end Hongdown.Props
