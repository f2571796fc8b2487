import Verif.Lemmas.Str
import Verif.Model.Refs
import Verif.Model.Heading
import Verif.Model.Cli
import Verif.Model.Code

/-!
# The functions of the standard library

Model and specifications both use the functions of `Verif.Str`, and the model a few more that stand for functions
of Rust's standard library. The theorems here say what these functions are by other means, so that a wrong
definition is noticed even where it would be wrong on both sides of a theorem.
-/

namespace Hongdown
open Model

/-! ### Characters -/

/-- The characters with the property `White_Space`. -/
theorem std_isWs (c : Char) : isWs c = true ↔ c.toNat ∈ [0x9, 0xA, 0xB, 0xC, 0xD, 0x20, 0x85, 0xA0, 0x1680, 0x2000, 0x2001,
    0x2002, 0x2003, 0x2004, 0x2005, 0x2006, 0x2007, 0x2008, 0x2009, 0x200A, 0x2028, 0x2029, 0x202F, 0x205F, 0x3000] := by
  simp only [isWs, Bool.or_eq_true, Bool.and_eq_true, decide_eq_true_eq, beq_iff_eq, List.mem_cons, List.not_mem_nil, or_false]
  omega

theorem ascii_cases {P : Char → Prop} (h : ∀ n < 128, P (Char.ofNat n)) (c : Char) (hc : c.toNat < 128) : P c := by
  have := h c.toNat hc
  rwa [Char.ofNat_toNat] at this

theorem ascii_iff {f : Char → Bool} {l : List Char} (hf : ∀ c, f c = true → c.toNat < 128)
    (hl : (l.all fun c => decide (c.toNat < 128)) = true)
    (h : ∀ n < 128, f (Char.ofNat n) = l.contains (Char.ofNat n)) (c : Char) : f c = true ↔ c ∈ l := by
  by_cases hc : c.toNat < 128
  · have := ascii_cases (P := fun c => f c = l.contains c) h c hc
    rw [this, List.contains_iff_mem]
  · constructor
    · exact fun h => absurd (hf c h) hc
    · intro hm
      have := List.all_eq_true.mp hl c hm
      exact absurd (of_decide_eq_true this) hc

theorem std_isAsciiPunct (c : Char) : isAsciiPunct c = true ↔ c ∈ "!\"#$%&'()*+,-./:;<=>?@[\\]^_`{|}~".toList := by
  refine ascii_iff ?_ (by decide +kernel) (by decide +kernel) c
  intro c h
  simp only [isAsciiPunct, Bool.or_eq_true, Bool.and_eq_true, decide_eq_true_eq] at h
  omega

theorem std_isAsciiDigit (c : Char) : isAsciiDigit c = true ↔ c ∈ "0123456789".toList := by
  refine ascii_iff ?_ (by decide +kernel) (by decide +kernel) c
  intro c h
  simp only [isAsciiDigit, Bool.and_eq_true, decide_eq_true_eq] at h
  omega

/-- Letters, digits and punctuation, but no blanks and no control characters. -/
theorem std_isAsciiGraphic (c : Char) : isAsciiGraphic c = true ↔ isAsciiPunct c = true ∨ c.isAlphanum = true := by
  by_cases hc : c.toNat < 128
  · exact ascii_cases (P := fun c => isAsciiGraphic c = true ↔ isAsciiPunct c = true ∨ c.isAlphanum = true)
      (by decide +kernel) c hc
  · constructor
    · intro h
      simp only [isAsciiGraphic, Bool.and_eq_true, decide_eq_true_eq] at h
      omega
    · intro h
      rcases h with h | h
      · simp only [isAsciiPunct, Bool.or_eq_true, Bool.and_eq_true, decide_eq_true_eq] at h
        omega
      · exfalso
        apply hc
        simp only [Char.isAlphanum, Char.isAlpha, Char.isUpper, Char.isLower, Char.isDigit, Bool.or_eq_true,
          Bool.and_eq_true, decide_eq_true_eq, UInt32.le_iff_toNat_le] at h
        have e : c.toNat = c.val.toNat := rfl
        simp at h
        omega

/-! ### Trimming -/

/-- A part without white space at its ends, the rest being white space. -/
structure Core (s t : List Char) : Prop where
  parts : ∃ a b, s = a ++ t ++ b ∧ (∀ c ∈ a, isWs c = true) ∧ ∀ c ∈ b, isWs c = true
  head : ∀ c ∈ t.head?, isWs c = false
  last : ∀ c ∈ t.getLast?, isWs c = false

theorem std_trim (s t : List Char) : trim s = t ↔ Core s t := by
  constructor
  · rintro rfl
    obtain ⟨a, b, ha, hb, e⟩ := trim_append s
    exact ⟨⟨a, b, e, ha, hb⟩, trim_head s, trim_getLast s⟩
  · rintro ⟨⟨a, b, rfl, ha, hb⟩, h1, h2⟩
    rw [trim, trimStart, List.append_assoc, dropWhile_isWs_append ha]
    cases t with
    | nil =>
      rw [List.nil_append, trimEnd_eq_nil_iff]
      intro c hc
      exact hb c ((List.dropWhile_sublist _).subset hc)
    | cons x t =>
      rw [dropWhile_isWs_of_head (by simpa using h1), trimEnd_append_ws hb, trimEnd_of_getLast h2]

theorem std_trimStart (s t : List Char) :
    trimStart s = t ↔ (∃ a, s = a ++ t ∧ ∀ c ∈ a, isWs c = true) ∧ ∀ c ∈ t.head?, isWs c = false := by
  constructor
  · rintro rfl
    obtain ⟨a, ha, e⟩ := trimStart_append s
    exact ⟨⟨a, e, ha⟩, head?_dropWhile_isWs s⟩
  · rintro ⟨⟨a, rfl, ha⟩, h⟩
    rw [trimStart, dropWhile_isWs_append ha, dropWhile_isWs_of_head h]

theorem std_trimEnd (s t : List Char) :
    trimEnd s = t ↔ (∃ b, s = t ++ b ∧ ∀ c ∈ b, isWs c = true) ∧ ∀ c ∈ t.getLast?, isWs c = false := by
  constructor
  · rintro rfl
    obtain ⟨b, hb, e⟩ := trimEnd_append s
    exact ⟨⟨b, e, hb⟩, trimEnd_getLast s⟩
  · rintro ⟨⟨b, rfl, hb⟩, h⟩
    rw [trimEnd_append_ws hb, trimEnd_of_getLast h]

example : trim " a b\n".toList = "a b".toList := by decide +kernel

/-! ### Splitting -/

theorem std_joinWith (sep : List Char) : ∀ l : List (List Char), joinWith sep l = (l.intersperse sep).flatten
  | [] => rfl
  | [a] => by simp [joinWith]
  | a :: b :: l => by
    rw [joinWith, std_joinWith sep (b :: l), List.intersperse_cons₂, List.flatten_cons, List.flatten_cons, List.append_assoc]

/-- The parts have no separator, and joined they give the text. -/
theorem std_splitOn (c : Char) (s : List Char) (l : List (List Char)) :
    splitOn c s = l ↔ l ≠ [] ∧ (∀ p ∈ l, c ∉ p) ∧ joinWith [c] l = s := by
  constructor
  · rintro rfl
    exact ⟨splitOn_ne_nil c s, splitOn_not_mem c s, join_splitOn c s⟩
  · rintro ⟨h1, h2, rfl⟩
    exact splitOn_join h1 h2

theorem std_stripCR (s : List Char) : stripCR (s ++ ['\r']) = s ∧ (s.getLast? ≠ some '\r' → stripCR s = s) := by
  constructor
  · simp [stripCR]
  · intro h
    rw [stripCR, if_neg h]

theorem linesGo_line {l : List Char} (hl : '\n' ∉ l) (rest : List Char) :
    ∀ acc : List Char, linesGo acc (l ++ '\n' :: rest) = stripCR (acc.reverse ++ l) :: linesGo [] rest := by
  induction l with
  | nil => intro acc; simp [linesGo]
  | cons c l ih =>
    intro acc
    have hc : c ≠ '\n' := fun e => hl (by simp [e])
    rw [List.cons_append, linesGo, if_neg hc, ih (fun h => hl (by simp [h]))]
    simp

theorem linesGo_last {t : List Char} (ht : '\n' ∉ t) :
    ∀ acc : List Char, linesGo acc t = if acc.reverse ++ t = [] then [] else [acc.reverse ++ t] := by
  induction t with
  | nil => intro acc; simp [linesGo]
  | cons c t ih =>
    intro acc
    have hc : c ≠ '\n' := fun e => ht (by simp [e])
    rw [linesGo, if_neg hc, ih (fun h => ht (by simp [h]))]
    simp

/-- Lines that end with a line feed, or with carriage return and line feed; the text after the last line feed is a line if
it is not empty, with its carriage return. -/
theorem std_lines (ls : List (List Char)) (t : List Char) (hl : ∀ l ∈ ls, '\n' ∉ l) (ht : '\n' ∉ t) :
    lines (ls.flatMap (· ++ ['\n']) ++ t) = ls.map stripCR ++ if t = [] then [] else [t] := by
  rw [lines]
  induction ls with
  | nil =>
    rw [List.flatMap_nil, List.nil_append, linesGo_last ht]
    rfl
  | cons l ls ih =>
    rw [List.flatMap_cons, List.append_assoc, List.append_assoc, List.singleton_append, linesGo_line (hl l (by simp)), ih
      (fun l h => hl l (by simp [h]))]
    rfl

example : lines "a\r\n\nb\r".toList = ["a".toList, [], "b\r".toList] := by decide +kernel

theorem wordsGo_word {w : List Char} (hw : ∀ c ∈ w, isWs c = false) (rest : List Char) :
    ∀ acc : List Char, wordsGo acc (w ++ rest) = wordsGo (w.reverse ++ acc) rest := by
  induction w with
  | nil => intro acc; rfl
  | cons c w ih =>
    intro acc
    rw [List.cons_append, wordsGo, if_neg (by simp [hw c (by simp)]), ih (fun c h => hw c (by simp [h]))]
    simp

/-- White space separates words, and nothing else does: with these equations the words of every text are known. -/
theorem std_splitWs (a b w : List Char) (ha : ∀ c ∈ a, isWs c = true) (hw : ∀ c ∈ w, isWs c = false) (h0 : w ≠ []) :
    splitWs [] = [] ∧ splitWs (a ++ b) = splitWs b ∧
    ((∀ c ∈ b.head?, isWs c = true) → splitWs (w ++ b) = w :: splitWs b) := by
  refine ⟨rfl, ?_, fun hb => ?_⟩
  · induction a with
    | nil => rfl
    | cons c a ih =>
      rw [List.cons_append, splitWs, wordsGo, if_pos (ha c (by simp)), if_pos rfl]
      exact ih fun c h => ha c (by simp [h])
  · rw [splitWs, wordsGo_word hw]
    have h1 : w.reverse ++ [] ≠ [] := by simpa using h0
    cases b with
    | nil => rw [wordsGo, if_neg h1]; simp [splitWs, wordsGo]
    | cons c b =>
      rw [wordsGo, if_pos (hb c (by simp)), if_neg h1, splitWs, wordsGo, if_pos (hb c (by simp)), if_pos rfl]
      simp

example : splitWs " a  bc\n".toList = ["a".toList, "bc".toList] := by decide +kernel

theorem std_stripPrefix (p : List Char) : ∀ s t : List Char, stripPrefix? p s = some t ↔ s = p ++ t := by
  induction p with
  | nil => intro s t; simp [stripPrefix?]
  | cons c p ih =>
    intro s t
    cases s with
    | nil => simp [stripPrefix?]
    | cons d s =>
      rw [stripPrefix?]
      split
      · rename_i h; rw [ih, h]; simp
      · rename_i h
        simp only [List.cons_append, List.cons.injEq]
        constructor
        · intro h; cases h
        · rintro ⟨e, _⟩; exact absurd e.symm h

theorem std_stripSuffix (p s t : List Char) : stripSuffix? p s = some t ↔ s = t ++ p := by
  rw [stripSuffix?, Option.map_eq_some_iff]
  constructor
  · rintro ⟨r, h, rfl⟩
    rw [std_stripPrefix] at h
    have := congrArg List.reverse h
    simpa using this
  · rintro rfl
    exact ⟨t.reverse, by rw [std_stripPrefix]; simp, by simp⟩

theorem std_containsSub (p : List Char) : ∀ s : List Char, containsSub p s = true ↔ p <:+: s
  | [] => by simp [containsSub]
  | c :: s => by
    rw [containsSub, Bool.or_eq_true, std_containsSub p s, List.isPrefixOf_iff_prefix, List.infix_cons_iff]

/-! ### Lengths -/

/-- The length in bytes is the one of Lean's strings. -/
theorem std_utf8Len (c : Char) : utf8Len c = c.utf8Size := by
  rw [utf8Len, Char.utf8Size]
  simp only [UInt32.le_iff_toNat_le]
  have e : c.toNat = c.val.toNat := rfl
  simp only [UInt32.toNat_ofNatLT]
  repeat' split
  all_goals omega

theorem std_spaces (n : Nat) : (spaces n).length = n ∧ ∀ c ∈ spaces n, c = ' ' := by
  refine ⟨List.length_replicate, fun c h => List.eq_of_mem_replicate h⟩

theorem std_byteLen (s : List Char) : byteLen s = (s.map Char.utf8Size).sum := by
  rw [byteLen]
  congr 1
  exact List.map_congr_left fun c _ => std_utf8Len c

/-! ### Maps and sorting -/

/-- The inserted key has the new value, the other keys have theirs, and a key keeps its place. -/
theorem std_mapInsert {β : Type} (k : List Char) (v : β) (m : List (List Char × β)) :
    (∀ k', (mapInsert k v m).lookup k' = if k' = k then some v else m.lookup k') ∧
    (mapInsert k v m).map (·.1) = if k ∈ m.map (·.1) then m.map (·.1) else m.map (·.1) ++ [k] := by
  induction m with
  | nil =>
    refine ⟨fun k' => ?_, by simp [mapInsert]⟩
    rw [mapInsert, List.lookup_cons]
    by_cases h : k' = k
    · subst h; simp
    · have : (k' == k) = false := by simpa using h
      simp [this, h]
  | cons e m ih =>
    obtain ⟨k0, v0⟩ := e
    obtain ⟨ih1, ih2⟩ := ih
    by_cases hk : k0 = k
    · subst hk
      refine ⟨fun k' => ?_, by simp [mapInsert]⟩
      rw [mapInsert, if_pos rfl, List.lookup_cons, List.lookup_cons]
      by_cases h : k' = k0
      · subst h; simp
      · have : (k' == k0) = false := by simpa using h
        simp [this, h]
    · refine ⟨fun k' => ?_, ?_⟩
      · rw [mapInsert, if_neg hk, List.lookup_cons, List.lookup_cons, ih1]
        by_cases h : k' = k0
        · subst h; simp [hk]
        · have : (k' == k0) = false := by simpa using h
          simp [this]
      · rw [mapInsert, if_neg hk, List.map_cons, ih2, List.map_cons]
        by_cases h : k ∈ m.map (·.1)
        · simp [h]
        · have h' : ¬ k ∈ k0 :: m.map (·.1) := fun hm => by
            rcases List.mem_cons.mp hm with e | e
            · exact hk e.symm
            · exact h e
          rw [if_neg h, if_neg h']
          rfl

end Hongdown
