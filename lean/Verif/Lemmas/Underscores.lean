import Verif.Lemmas.SourceText
import Verif.Lemmas.Escape
import Verif.Lemmas.Core
import Verif.Lemmas.Quote

namespace Hongdown
open Model Spec

/-- A text in which the characters that emphasis and code are made of are escaped, one by one. -/
inductive EscapedText : List Char → Prop
  | nil : EscapedText []
  | pair {c : Char} {s : List Char} : c ∈ asciiPunctuation → EscapedText s → EscapedText ('\\' :: c :: s)
  | char {c : Char} {s : List Char} : c ≠ '*' ∧ c ≠ '_' ∧ c ≠ '\\' ∧ c ≠ '`' → EscapedText s → EscapedText (c :: s)

theorem EscapedText.append {a b : List Char} (ha : EscapedText a) (hb : EscapedText b) : EscapedText (a ++ b) := by
  induction ha with
  | nil => exact hb
  | pair h _ ih => exact .pair h ih
  | char h _ ih => exact .char h ih

theorem EscapedText.plain {a : List Char} (h : ∀ c ∈ a, c ≠ '*' ∧ c ≠ '_' ∧ c ≠ '\\' ∧ c ≠ '`') : EscapedText a := by
  induction a with
  | nil => exact .nil
  | cons c a ih => exact .char (h c (by simp)) (ih fun d hd => h d (by simp [hd]))

theorem EscapedText.live {s : List Char} (h : EscapedText s) : ∀ c ∈ liveChars s, c ≠ '*' ∧ c ≠ '_' ∧ c ≠ '\\' ∧ c ≠ '`' := by
  induction h with
  | nil => intro c hc; simp [liveChars] at hc
  | pair h _ ih => intro c hc; rw [liveChars, if_pos h] at hc; exact ih c hc
  | @char d s h _ ih =>
    intro c hc
    rw [liveChars.eq_def] at hc
    split at hc
    · simp_all
    · simp_all
    · simp_all
    · next e =>
      injection e with e1 e2
      subst e1; subst e2
      rcases List.mem_cons.1 hc with rfl | hc
      · exact h
      · exact ih c hc

theorem escaped_escapeTextGo (s : List Char) : ∀ p, EscapedText (escapeTextGo p s) := by
  induction s with
  | nil => intro p; exact .nil
  | cons d ds ih =>
    intro p
    rw [escapeTextGo]
    split
    · rename_i h; exact .pair (needsEscape_mem h) (ih _)
    · rename_i h; exact .char (needsEscape_false (Bool.eq_false_iff.mpr h)) (ih _)

theorem escaped_char (c : Char) : EscapedText (escapeChar c) := escaped_escapeTextGo [c] none

theorem escaped_chars (s : List Char) : EscapedText (s.flatMap escapeChar) := by
  induction s with
  | nil => exact .nil
  | cons c s ih => exact (escaped_char c).append ih

theorem scanEntity_mem : ∀ (k : Nat) (s body : List Char), scanEntity k s = some body → ∀ c ∈ body, isAsciiAlnum c = true ∨ c = '#'
  | 0, _, _, h => by rw [scanEntity] at h; cases h
  | k + 1, [], _, h => by rw [scanEntity] at h; cases h
  | k + 1, c :: s, body, h => by
    rw [scanEntity] at h
    split at h
    · cases h; intro c hc; cases hc
    · split at h
      · next hc =>
        obtain ⟨b, hb, rfl⟩ := Option.map_eq_some_iff.1 h
        intro d hd
        rcases List.mem_cons.1 hd with rfl | hd
        · simpa using hc
        · exact scanEntity_mem k s b hb d hd
      · cases h

theorem escaped_entity {named : List Char → Option Char} {ss entity : List Char} {d : Char}
    (h : tryParseEntity named ss = some (entity, d)) : EscapedText entity := by
  rw [tryParseEntity] at h
  split at h
  · cases h
  · next body hb =>
    obtain ⟨x, _, e⟩ := Option.map_eq_some_iff.1 h
    have e : entity = '&' :: body ++ [';'] := by injection e with e _; exact e.symm
    subst e
    refine EscapedText.plain fun c hc => ?_
    have hc : c = '&' ∨ c ∈ body ∨ c = ';' := by simpa using hc
    rcases hc with rfl | hc | rfl
    · decide
    · have := scanEntity_mem _ _ _ hb c hc
      refine ⟨?_, ?_, ?_, ?_⟩ <;> (rintro rfl; revert this; decide)
    · decide

theorem escaped_srcGo (named : List Char → Option Char) : ∀ (k : Nat) (t s : List Char), EscapedText (escapeSrcGo named k t s)
  | 0, t, s => by rw [escapeSrcGo]; exact escaped_chars t
  | k + 1, [], s => by rw [escapeSrcGo]; exact .nil
  | k + 1, t :: ts, [] => by rw [escapeSrcGo]; exact escaped_chars (t :: ts)
  | k + 1, t :: ts, s :: ss => by
    have ih := escaped_srcGo named k
    rw [escapeSrcGo]
    split
    · split
      · split
        · exact .pair (by decide) (ih _ _)
        · exact (escaped_char t).append (ih _ _)
      · next ht =>
        split
        · refine EscapedText.append ?_ (ih _ _)
          rw [escapeChar_eq]
          split
          · next hs =>
            refine .pair ?_ .nil
            by_cases h : t = '*' ∨ t = '_' ∨ t = '\\' ∨ t = '`'
            · rcases h with rfl | rfl | rfl | rfl <;> decide
            · simp [h] at hs
          · next hs =>
            by_cases h : t = '*' ∨ t = '_' ∨ t = '\\' ∨ t = '`'
            · simp [h] at hs
            · exact .pair (by decide) (.char (by simpa using h) .nil)
        · exact (escaped_char t).append (ih _ _)
    · split
      · split
        · next e =>
          split
          · exact (escaped_entity e).append (ih _ _)
          · exact (escaped_char t).append (ih _ _)
        · split
          · exact (escaped_char t).append (ih _ _)
          · exact ih _ _
      · split
        · exact (escaped_char t).append (ih _ _)
        · exact ih _ _

theorem escaped_textNode (cx : Cx) (t : List Char) (p : Pos) : EscapedText (textNode cx t p) := by
  rw [textNode]
  split
  · exact escaped_srcGo _ _ _ _
  · exact escaped_escapeTextGo _ none

/-- Words are cut where nothing is escaped. -/
theorem escaped_wordsAux {s : List Char} (h : EscapedText s) : ∀ acc, EscapedText acc.reverse →
    ∀ w ∈ wordsAux acc s, EscapedText w := by
  induction h with
  | nil =>
    intro acc ha w hw
    rw [wordsAux] at hw
    split at hw
    · cases hw
    · have : w = acc.reverse := by simpa using hw
      exact this ▸ ha
  | @pair c s hc _ ih =>
    intro acc ha w hw
    rw [wordsAux, if_neg (by decide), wordsAux, if_neg ?_] at hw
    · refine ih _ ?_ w hw
      have : EscapedText ['\\', c] := .pair hc .nil
      simpa using ha.append this
    · exact (show ∀ c ∈ asciiPunctuation, ¬ (isWs c = true ∨ c = '\x00') by decide) c hc
  | @char c s hc _ ih =>
    intro acc ha w hw
    rw [wordsAux] at hw
    split at hw
    · rcases List.mem_append.1 hw with hw | hw
      · split at hw
        · cases hw
        · have : w = acc.reverse := by simpa using hw
          exact this ▸ ha
      · exact ih [] .nil w hw
    · refine ih _ ?_ w hw
      have : EscapedText [c] := .char hc .nil
      simpa using ha.append this

theorem escaped_words {s : List Char} (h : EscapedText s) : ∀ w ∈ words s, EscapedText w :=
  escaped_wordsAux h [] .nil

end Hongdown
