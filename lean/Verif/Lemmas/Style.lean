import Verif.Spec.Links
import Verif.Lemmas.WrapStable
import Verif.Model.Inline

/-!
# Reference style detection
-/

namespace Hongdown.Model
open Spec

theorem openAfter_other {c : Char} (h1 : c ≠ '[') (h2 : c ≠ ']') (d : Nat) (s : List Char) :
    openAfter d (c :: s) = openAfter d s := by
  rw [openAfter.eq_def]
  split <;> simp_all

theorem closeIndex_matched (after : List Char) : ∀ (text : List Char) (d i : Nat),
    openAfter d text = some 0 →
    closeIndex (d + 1) i (text ++ ']' :: after) = some (i + text.length)
  | [], d, i, h => by
    simp only [openAfter, Option.some.injEq] at h
    subst h
    rfl
  | c :: s, d, i, h => by
    by_cases h1 : c = '['
    · subst h1
      rw [openAfter] at h
      have := closeIndex_matched after s (d + 1) (i + 1) h
      rw [List.cons_append, closeIndex, if_pos rfl]
      rw [show ((d : Int) + 1 + 1) = ((d + 1 : Nat) : Int) + 1 by omega, this, List.length_cons]
      congr 1; omega
    · by_cases h2 : c = ']'
      · subst h2
        cases d with
        | zero => simp [openAfter] at h
        | succ e =>
          simp only [openAfter] at h
          have := closeIndex_matched after s e (i + 1) h
          rw [List.cons_append, closeIndex, if_neg (by decide), if_pos rfl, if_neg (by omega)]
          rw [show (((e + 1 : Nat) : Int) + 1 - 1) = (e : Int) + 1 by omega, this, List.length_cons]
          congr 1; omega
      · rw [openAfter_other h1 h2] at h
        rw [List.cons_append, closeIndex, if_neg h1, if_neg h2, closeIndex_matched after s d (i + 1) h,
          List.length_cons]
        congr 1; omega

/-- What `referenceStyle` does with the text between the brackets and with what comes after. -/
def styleAfter (text after : List Char) : Option (List Char × List Char) :=
  if after.head? = some '(' then none
  else match after with
    | '[' :: rest =>
      if rest.contains ']' then
        let label := normalizeWhitespace (rest.takeWhile (· ≠ ']'))
        if label = [] then some (normalizeWhitespace text, collapsedMark :: normalizeWhitespace text)
        else some (normalizeWhitespace text, label)
      else some (normalizeWhitespace text, normalizeWhitespace text)
    | _ => some (normalizeWhitespace text, normalizeWhitespace text)

theorem referenceStyle_front (bang : List Char) (hb : bang = [] ∨ bang = ['!']) (text after : List Char)
    (h : Matched text) :
    referenceStyle (bang ++ ('[' :: text ++ ']' :: after)) = styleAfter text after := by
  have e : (stripPrefix? ['!'] (bang ++ ('[' :: text ++ ']' :: after))).getD
      (bang ++ ('[' :: text ++ ']' :: after)) = '[' :: text ++ ']' :: after := by
    rcases hb with rfl | rfl <;> rfl
  have hc := closeIndex_matched after text 0 1 h
  have hf : byteLen (('[' :: text ++ ']' :: after).takeWhile (· ≠ '[')) = 0 := rfl
  have hcl : closeIndex 0 0 ('[' :: text ++ ']' :: after) = some (1 + text.length) := by
    rw [List.cons_append, closeIndex, if_pos rfl]; exact hc
  unfold referenceStyle
  simp only [e, hf, List.drop_zero, hcl]
  rw [if_neg (by simp)]
  have h1 : ('[' :: text ++ ']' :: after).drop (1 + text.length + 1) = after := by
    rw [show 1 + text.length + 1 = ('[' :: text ++ [']']).length by simp; omega]
    rw [show '[' :: text ++ ']' :: after = ('[' :: text ++ [']']) ++ after by simp]
    exact List.drop_left
  have h2 : (('[' :: text ++ ']' :: after).take (1 + text.length)).drop (0 + 1) = text := by
    rw [show 1 + text.length = ('[' :: text).length by simp; omega, List.take_left]
    rfl
  rw [h1, h2]
  rfl

theorem mem_wordsGo {c : Char} : ∀ (s acc w : List Char), w ∈ wordsGo acc s → c ∈ w → c ∈ acc ∨ c ∈ s
  | [], acc, w, h, hc => by
    rw [wordsGo] at h
    split at h
    · simp at h
    · simp only [List.mem_singleton] at h; subst h; exact .inl (by simpa using hc)
  | a :: s, acc, w, h, hc => by
    rw [wordsGo] at h
    split at h
    · split at h
      · rcases mem_wordsGo s [] w h hc with h | h
        · simp at h
        · exact .inr (by simp [h])
      · rcases List.mem_cons.1 h with rfl | h
        · exact .inl (by simpa using hc)
        · rcases mem_wordsGo s [] w h hc with h | h
          · simp at h
          · exact .inr (by simp [h])
    · rcases mem_wordsGo s (a :: acc) w h hc with h | h
      · rcases List.mem_cons.1 h with rfl | h
        · exact .inr (by simp)
        · exact .inl h
      · exact .inr (by simp [h])

theorem mem_squeezed {c : Char} {s : List Char} (h : c ∈ squeezed s) : c = ' ' ∨ c ∈ s := by
  rcases mem_joinWith h with h | ⟨w, hw, hc⟩
  · exact .inl (by simpa using h)
  · rcases mem_wordsGo s [] w hw hc with h | h
    · simp at h
    · exact .inr h

end Hongdown.Model
