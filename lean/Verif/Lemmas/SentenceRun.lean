import Verif.Lemmas.PhraseWords

/-!
# Sentence case of whole headings
-/

namespace Hongdown
open Model Spec

section
variable {u : Uni} {n : Nouns}

theorem delimiter_iff (c : Char) : isHeadingDelimiter c = true ↔ Delimiter c := by
  simp [isHeadingDelimiter, Delimiter, or_assoc]

/-- The last separators have a delimiter. -/
def AfterDelimiter (a : List Bit) : Prop := ∃ x c y, a = x ++ .sep c :: y ∧ Delimiter c ∧ Wordless y

theorem wordless_append {a b : List Bit} : Wordless (a ++ b) ↔ Wordless a ∧ Wordless b := by
  simp only [Wordless, List.mem_append, not_or]
  exact ⟨fun h => ⟨fun w o => (h w o).1, fun w o => (h w o).2⟩, fun h w o => ⟨h.1 w o, h.2 w o⟩⟩

theorem wordless_sep (c : Char) : Wordless [.sep c] := by intro w o h; simp at h

theorem wordless_nil : Wordless [] := by intro w o h; simp at h

theorem not_wordless_word (w : List Atom) (o : List Char) : ¬ Wordless [.word w o] := fun h => h w o (by simp)

theorem afterDelimiter_snoc_sep (a : List Bit) (c : Char) : AfterDelimiter (a ++ [.sep c]) ↔ Delimiter c ∨ AfterDelimiter a := by
  constructor
  · rintro ⟨x, d, y, e, hd, hy⟩
    rcases List.eq_nil_or_concat y with rfl | ⟨y', z, rfl⟩
    · have := List.append_inj' (t₁ := [Bit.sep c]) (t₂ := [Bit.sep d]) e rfl
      simp at this
      exact .inl (this.2 ▸ hd)
    · right
      rw [List.concat_eq_append] at e hy
      have e' : a ++ [.sep c] = (x ++ .sep d :: y') ++ [z] := by simpa using e
      have := List.append_inj' e' rfl
      exact ⟨x, d, y', this.1, hd, (wordless_append.mp hy).1⟩
  · rintro (h | ⟨x, d, y, rfl, hd, hy⟩)
    · exact ⟨a, c, [], rfl, h, wordless_nil⟩
    · exact ⟨x, d, y ++ [.sep c], by simp, hd, wordless_append.mpr ⟨hy, wordless_sep c⟩⟩

theorem afterDelimiter_snoc_word (a : List Bit) (w : List Atom) (o : List Char) : ¬ AfterDelimiter (a ++ [.word w o]) := by
  rintro ⟨x, d, y, e, hd, hy⟩
  rcases List.eq_nil_or_concat y with rfl | ⟨y', z, rfl⟩
  · have := List.append_inj' (t₁ := [Bit.word w o]) (t₂ := [Bit.sep d]) e rfl
    simp at this
  · rw [List.concat_eq_append] at e hy
    have e' : a ++ [.word w o] = (x ++ .sep d :: y') ++ [z] := by simpa using e
    have := List.append_inj' e' rfl
    simp at this
    exact hy w o (by simp [this.2])

/-- All that holds of the rest of a text. -/
structure RunOk (u : Uni) (n : Nouns) (found : List Found) (f0 : Bool) (a : List Bit) (s : List Atom) (r : List Char × Bool)
    (bits : List Bit) : Prop where
  isBits : IsBits bits s
  result : bits.flatMap Bit.result = restorePlaceholders r.1 (repsOf found)
  word : ∀ x w o y, bits = x ++ .word w o :: y → ∃ f, (f = true ↔ Starts u f0 (a ++ x) w y) ∧ AtomRule u n found f w o
  flag : r.2 = true ↔ f0 = true ∧ Wordless (a ++ bits)

theorem _root_.Hongdown.Spec.IsBits.cons_sep {bits : List Bit} {s : List Atom} (h : IsBits bits s) {c : Char} (hc : isWs c = true ∨ Delimiter c) :
    IsBits (.sep c :: bits) (.char c :: s) where
  source := by rw [List.flatMap_cons, h.source]; rfl
  sep d hd := by
    rcases List.mem_cons.mp hd with e | hd
    · cases e; exact hc
    · exact h.sep d hd
  word w o hw := h.word w o (by simpa using hw)
  apart x w o w' o' y e := by
    cases x with
    | nil => simp at e
    | cons b x =>
      simp only [List.cons_append, List.cons.injEq] at e
      exact h.apart x w o w' o' y e.2

theorem _root_.Hongdown.Spec.IsBits.cons_word {bits : List Bit} {s : List Atom} (h : IsBits bits s) {w : List Atom} {o : List Char} (hw : w ≠ [])
    (hc : ∀ c, .char c ∈ w → isWs c = false ∧ ¬ Delimiter c) (hh : ∀ w o, bits.head? ≠ some (.word w o)) :
    IsBits (.word w o :: bits) (w ++ s) where
  source := by rw [List.flatMap_cons, h.source]; rfl
  sep d hd := h.sep d (by simpa using hd)
  word v o' hv := by
    rcases List.mem_cons.mp hv with e | hv
    · cases e; exact ⟨hw, hc⟩
    · exact h.word v o' hv
  apart x w o w' o' y e := by
    cases x with
    | nil =>
      simp only [List.nil_append, List.cons.injEq] at e
      exact hh w' o' (by rw [e.2]; rfl)
    | cons b x =>
      simp only [List.cons_append, List.cons.injEq] at e
      exact h.apart x w o w' o' y e.2

theorem sep_cut {c : Char} (hc : isWs c = true ∨ Delimiter c) : Cut c :=
  hc.elim isWs_cut fun h => delimiter_cut ((delimiter_iff c).mpr h)

variable {found : List Found}

theorem RunOk.cons_sep {f0 : Bool} {a : List Bit} {s : List Atom} {r : List Char × Bool} {bits : List Bit} {c : Char}
    (h : RunOk u n found f0 (a ++ [.sep c]) s r bits) (hc : isWs c = true ∨ Delimiter c) :
    RunOk u n found f0 a (.char c :: s) (c :: r.1, r.2) (.sep c :: bits) where
  isBits := h.isBits.cons_sep hc
  result := by
    have := restore_cut (repsOk found) (sep_cut hc) [] r.1
    rw [List.nil_append, restore_id (repsOk found) (s := []) (by simp), List.nil_append] at this
    rw [List.flatMap_cons, h.result, this]
    rfl
  word x w o y e := by
    cases x with
    | nil => simp at e
    | cons b x =>
      simp only [List.cons_append, List.cons.injEq] at e
      obtain ⟨rfl, e⟩ := e
      obtain ⟨f, h1, h2⟩ := h.word x w o y e
      exact ⟨f, by rw [h1]; simp, h2⟩
  flag := by rw [h.flag]; simp

theorem RunOk.cons_word {f0 : Bool} {a : List Bit} {s : List Atom} {r : List Char × Bool} {bits : List Bit} {w : List Atom} {o : List Char}
    (h : RunOk u n found f0 (a ++ [.word w (restorePlaceholders o (repsOf found))]) s r bits) (hw : w ≠ [])
    (hc : ∀ c, .char c ∈ w → isWs c = false ∧ ¬ Delimiter c)
    (hh : ∀ w o, bits.head? ≠ some (.word w o)) (hcut : r.1 = [] ∨ ∃ c t, r.1 = c :: t ∧ Cut c)
    {f : Bool} (hf : f = true ↔ Starts u f0 a w bits)
    (hr : AtomRule u n found f w (restorePlaceholders o (repsOf found))) :
    RunOk u n found f0 a (w ++ s) (o ++ r.1, r.2) (.word w (restorePlaceholders o (repsOf found)) :: bits) where
  isBits := h.isBits.cons_word hw hc hh
  result := by
    rw [List.flatMap_cons, h.result]
    rcases hcut with e | ⟨c, t, e, hcut⟩
    · rw [e, List.append_nil, restore_id (repsOk found) (s := []) (by simp), List.append_nil]; rfl
    · have := restore_cut (repsOk found) hcut [] t
      rw [List.nil_append, restore_id (repsOk found) (s := []) (by simp), List.nil_append] at this
      rw [e, restore_cut (repsOk found) hcut, this]; rfl
  word x w' o' y e := by
    cases x with
    | nil =>
      simp only [List.nil_append, List.cons.injEq, Bit.word.injEq] at e
      obtain ⟨⟨rfl, rfl⟩, rfl⟩ := e
      exact ⟨f, by rw [hf, List.append_nil], hr⟩
    | cons b x =>
      simp only [List.cons_append, List.cons.injEq] at e
      obtain ⟨rfl, e⟩ := e
      obtain ⟨f, h1, h2⟩ := h.word x w' o' y e
      exact ⟨f, by rw [h1]; simp, h2⟩
  flag := by rw [h.flag]; simp

theorem runOk_nil (f0 : Bool) (a : List Bit) {first : Bool} (hf : first = true ↔ f0 = true ∧ Wordless a) :
    RunOk u n found f0 a [] ([], first) [] where
  isBits := ⟨rfl, by simp, by simp, by intro x; simp⟩
  result := (restore_id (repsOk found) (by simp)).symm
  word x w o y e := by simp at e
  flag := by rw [List.append_nil]; exact hf

theorem starts_ws (hu : u.uppercase '�' = false) {f0 first after : Bool} {a : List Bit} {w : List Atom} {b : List Bit}
    (hf : first = true ↔ f0 = true ∧ Wordless a) (ha : after = true ↔ AfterDelimiter a)
    (hb : ∀ c, b.head? = some (.sep c) → ¬ Delimiter c) :
    shouldCapitalize u first after (encAtoms w) = true ↔ Starts u f0 a w b := by
  have hhead : (encAtoms w).head?.any u.uppercase = true ↔ ∃ c, w.head? = some (.char c) ∧ u.uppercase c = true := by
    cases w with
    | nil => simp [encAtoms]
    | cons x w =>
      cases x with
      | char c => simp [encAtoms, encAtom]
      | noun i => simp [encAtoms, encAtom, placeholder, hu]
  rw [shouldCapitalize, Starts, ← hf]
  by_cases h1 : first = true
  · simp [h1]
  · by_cases h2 : after = true
    · rw [h2] at ha
      have : AfterDelimiter a := ha.mp rfl
      simp only [h1, h2, Bool.false_eq_true, if_false, if_true, false_or]
      rw [hhead]
      exact ⟨fun h => ⟨this, hb, h⟩, fun h => h.2.2⟩
    · simp only [h1, h2, Bool.false_eq_true, if_false, false_or, false_iff]
      exact fun h => h2 (ha.mpr h.1)

theorem placeholder_inner (i : Nat) : ∀ c ∈ placeholder i, isWs c = false ∧ isHeadingDelimiter c = false := by
  intro c hc
  refine ⟨?_, ?_⟩
  · rw [Bool.eq_false_iff]; intro h; exact cut_placeholder (isWs_cut h) i hc
  · rw [Bool.eq_false_iff]; intro h; exact cut_placeholder (delimiter_cut h) i hc

theorem encAtoms_ne {w : List Atom} (h : w ≠ []) : encAtoms w ≠ [] := by
  obtain ⟨a, w, rfl⟩ := List.exists_cons_of_ne_nil h
  cases a <;> simp [encAtoms, encAtom, placeholder]

theorem processChars_run {f : Char → List Char} (W : NounWorld u f n found) (f0 : Bool) : ∀ (s word : List Atom) (a : List Bit) (first after : Bool),
    (first = true ↔ f0 = true ∧ Wordless a) → (after = true ↔ AfterDelimiter a) →
    (∀ c, .char c ∈ word → isWs c = false ∧ ¬ Delimiter c) → SafeAtoms u found (word ++ s) →
    ∃ bits, RunOk u n found f0 a (word ++ s) (processChars u n first after (encAtoms word) (encAtoms s)) bits
  | [], word, a, first, after, hf, ha, hw, hm => by
    rw [show encAtoms [] = [] from rfl, processChars, List.append_nil]
    by_cases h : word = []
    · subst h
      rw [if_pos (show encAtoms [] = [] from rfl)]
      exact ⟨[], runOk_nil f0 a hf⟩
    · rw [if_neg (encAtoms_ne h)]
      rw [List.append_nil] at hm
      have hnil : RunOk u n found f0 (a ++ [.word word (restorePlaceholders (processWord u n (encAtoms word)
          (shouldCapitalize u first after (encAtoms word))) (repsOf found))]) [] ([], false) [] :=
        runOk_nil _ _ (by
          simp only [Bool.false_eq_true, false_iff]
          exact fun h => not_wordless_word _ _ (wordless_append.mp h.2).2)
      have := hnil.cons_word h hw (by simp) (.inl rfl) (starts_ws W.mark.mark hf ha (by simp)) (processWord_atoms W hm h _)
      rw [List.append_nil, List.append_nil] at this
      exact ⟨_, this⟩
  | .noun i :: rest, word, a, first, after, hf, ha, hw, hm => by
    have e : encAtoms (.noun i :: rest) = placeholder i ++ encAtoms rest := rfl
    have e2 : encAtoms word ++ placeholder i = encAtoms (word ++ [.noun i]) := by rw [encAtoms_append]; simp [encAtoms, encAtom]
    obtain ⟨bits, h⟩ := processChars_run W f0 rest (word ++ [.noun i]) a first after hf ha (by
      intro c hc; exact hw c (by simpa using hc)) (by simpa using hm)
    exact ⟨bits, by
      rw [e, processChars_word n first after _ _ _ (placeholder_inner i), e2]
      simpa using h⟩
  | .char c :: rest, word, a, first, after, hf, ha, hw, hm => by
    have e : encAtoms (.char c :: rest) = c :: encAtoms rest := rfl
    have e0 : ([] : List Char) = encAtoms [] := rfl
    rw [e, processChars]
    have hmr : SafeAtoms u found ([] ++ rest) := hm.infix (x := word ++ [.char c]) (y := []) (by simp)
    have hmw : SafeAtoms u found word := hm.infix (x := []) (y := .char c :: rest) (by simp)
    split
    · rename_i hc
      have hnd : ¬ Delimiter c := by
        intro hd
        exact absurd hc ((show ∀ c ∈ [':', ';', '—', '–'], ¬ isWs c = true by decide) c hd)
      by_cases h : word = []
      · subst h
        rw [if_pos (show encAtoms [] = [] from rfl)]
        obtain ⟨bits, h1⟩ := processChars_run W f0 rest [] (a ++ [.sep c]) first after
          (by rw [hf, wordless_append]; simp [wordless_sep]) (by rw [ha, afterDelimiter_snoc_sep]; simp [hnd]) (by simp) hmr
        exact ⟨_, h1.cons_sep (.inl hc)⟩
      · rw [if_neg (encAtoms_ne h)]
        obtain ⟨bits, h1⟩ := processChars_run W f0 rest [] (a ++ [.word word (restorePlaceholders (processWord u n (encAtoms word) (shouldCapitalize u first after (encAtoms word))) (repsOf found))] ++ [.sep c]) false false
          (by simp only [Bool.false_eq_true, false_iff]
              exact fun h => not_wordless_word _ _ (wordless_append.mp (wordless_append.mp h.2).1).2)
          (by rw [afterDelimiter_snoc_sep]; simp [hnd, afterDelimiter_snoc_word]) (by simp) hmr
        exact ⟨_, (h1.cons_sep (.inl hc)).cons_word h hw (by simp) (.inr ⟨c, _, rfl, isWs_cut hc⟩)
          (starts_ws W.mark.mark hf ha (by intro d hd; simp at hd; rw [← hd]; exact hnd)) (processWord_atoms W hmw h _)⟩
    · rename_i hws
      split
      · rename_i hc
        have hd := (delimiter_iff c).mp hc
        by_cases h : word = []
        · subst h
          rw [if_pos (show encAtoms [] = [] from rfl)]
          obtain ⟨bits, h1⟩ := processChars_run W f0 rest [] (a ++ [.sep c]) first true
            (by rw [hf, wordless_append]; simp [wordless_sep]) (by rw [afterDelimiter_snoc_sep]; simp [hd]) (by simp) hmr
          exact ⟨_, h1.cons_sep (.inr hd)⟩
        · rw [if_neg (encAtoms_ne h)]
          obtain ⟨bits, h1⟩ := processChars_run W f0 rest [] (a ++ [.word word (restorePlaceholders (processWord u n (encAtoms word) first) (repsOf found))] ++ [.sep c]) false true
            (by simp only [Bool.false_eq_true, false_iff]
                exact fun h => not_wordless_word _ _ (wordless_append.mp (wordless_append.mp h.2).1).2)
            (by rw [afterDelimiter_snoc_sep]; simp [hd]) (by simp) hmr
          exact ⟨_, (h1.cons_sep (.inr hd)).cons_word (f := first) h hw (by simp) (.inr ⟨c, _, rfl, delimiter_cut hc⟩)
            (by
              rw [hf, Starts]
              refine ⟨.inl, fun h => h.resolve_right ?_⟩
              rintro ⟨_, h, _⟩
              exact h c rfl hd) (processWord_atoms W hmw h _)⟩
      · rename_i hc
        have hnd : ¬ Delimiter c := fun h => hc ((delimiter_iff c).mpr h)
        have e2 : encAtoms word ++ [c] = encAtoms (word ++ [.char c]) := by rw [encAtoms_append]; simp [encAtoms, encAtom]
        obtain ⟨bits, h1⟩ := processChars_run W f0 rest (word ++ [.char c]) a first after hf ha (by
          intro d hd
          simp only [List.mem_append, List.mem_singleton, Atom.char.injEq] at hd
          rcases hd with hd | rfl
          · exact hw d hd
          · exact ⟨by simpa using hws, hnd⟩) (by simpa using hm)
        exact ⟨bits, by rw [e2]; simpa using h1⟩

theorem wordless_iff (hw : WordyNouns u n) {bits : List Bit} {atoms : List Atom} {s : List Char} (hp : Phrases u n found atoms s)
    (h : IsBits bits atoms) : Wordless bits ↔ ¬ HasWord s := by
  constructor
  · rintro hw ⟨c, hc, h1, h2⟩
    rw [← hp.source, List.mem_flatMap] at hc
    obtain ⟨x, hx, hc⟩ := hc
    rw [← h.source, List.mem_flatMap] at hx
    obtain ⟨b, hb, hx⟩ := hx
    cases b with
    | sep d =>
      simp only [Bit.source, List.mem_singleton] at hx
      subst hx
      simp only [Atom.source, List.mem_singleton] at hc
      subst hc
      rcases h.sep c hb with h3 | h3
      · rw [h1] at h3; simp at h3
      · exact h2 h3
    | word w o => exact hw w o hb
  · intro hn w o hm
    obtain ⟨h1, h2⟩ := h.word w o hm
    obtain ⟨x, w', rfl⟩ := List.exists_cons_of_ne_nil h1
    have hx : x ∈ atoms := by
      rw [← h.source, List.mem_flatMap]
      exact ⟨_, hm, by simp [Bit.source]⟩
    have sub : ∀ c ∈ x.source found, c ∈ s := by
      intro c hc
      rw [← hp.source, List.mem_flatMap]
      exact ⟨x, hx, hc⟩
    cases x with
    | char c =>
      have := h2 c (by simp)
      exact hn ⟨c, sub c (by simp [Atom.source]), this.1, this.2⟩
    | noun i =>
      obtain ⟨A, C, e⟩ := List.append_of_mem hx
      obtain ⟨g, g1, g2, g3, _⟩ := hp.sound A i C e
      obtain ⟨c, hc, k1, k2⟩ := hw _ _ g2 g3
      exact hn ⟨c, sub c (by simp [Atom.source, g1, hc]), k1, k2⟩

theorem safe_phrases {atoms : List Atom} {s : List Char} (hp : Phrases u n found atoms s) (hm : '�' ∉ s) : SafeAtoms u found atoms where
  mark c hc e := by
    subst e
    apply hm
    rw [← hp.source, List.mem_flatMap]
    exact ⟨_, hc, by simp [Atom.source]⟩
  found i hi := by
    obtain ⟨A, C, e⟩ := List.append_of_mem hi
    obtain ⟨g, g1, _⟩ := hp.sound A i C e
    exact ⟨g, g1⟩
  edge a c i b e := by
    obtain ⟨g, _, _, _, g4, _⟩ := hp.sound (a ++ [.char c]) i b (by rw [e]; simp)
    exact g4 c (by simp)

/-- What becomes of a text. -/
theorem processText_recased {f : Char → List Char} (hf : LetterFold u f) (hn : NounsOk f n) (hq : f '’' = f '\'') (hM : MarkOk u)
    (hw : WordyNouns u n) (first : Bool) {s : List Char} (hm : '�' ∉ s) :
    Recased u n first s (processText u n first s).1 ∧ ((processText u n first s).2 = true ↔ first = true ∧ ¬ HasWord s) := by
  obtain ⟨atoms, found, h1, h2, h3⟩ := replaceNouns_phrases hf hn hq s
  obtain ⟨bits, h4⟩ := processChars_run (found := found) ⟨hf, hn, hM, h3⟩ first atoms [] [] first false (by simp [wordless_nil])
    (by simp [AfterDelimiter]) (by simp) (safe_phrases h2 hm)
  rw [List.nil_append, show encAtoms [] = [] from rfl] at h4
  rw [processText, h1]
  refine ⟨⟨found, atoms, bits, h2, h4.isBits, h4.result, fun a w o b e => ?_⟩, ?_⟩
  · obtain ⟨f, g1, g2⟩ := h4.word a w o b e
    exact ⟨f, by rw [g1]; simp, g2⟩
  · show (processChars u n first false [] (encAtoms atoms)).2 = true ↔ _
    rw [h4.flag, List.nil_append, wordless_iff hw h2 h4.isBits]

/-! ### Quotations -/

/-- The token of a piece. -/
def pieceTok : Stretch → HTok
  | .text s => .text s
  | .quote d s => .quote s d

theorem tokenizeQuotes_pieces : ∀ (fuel : Nat) (cur s : List Char), s.length ≤ fuel → '“' ∉ cur → '‘' ∉ cur →
    ∃ ps, tokenizeQuotes fuel cur s = ps.map pieceTok ∧ Stretches (cur ++ s) ps := by
  have flush : ∀ cur rest ps, '“' ∉ cur → '‘' ∉ cur → (rest = [] ∨ ∃ d r, rest = opening d :: r) → Stretches rest ps →
      ∃ ps', flushTok cur ++ ps.map pieceTok = ps'.map pieceTok ∧ Stretches (cur ++ rest) ps' := by
    intro cur rest ps h1 h2 h3 h4
    rw [flushTok]
    split
    · rename_i h; exact ⟨ps, by simp, by simpa [h] using h4⟩
    · rename_i h; exact ⟨.text cur :: ps, by simp [pieceTok], .text cur rest ps h h1 h2 h3 h4⟩
  intro fuel
  induction fuel using Nat.strongRecOn with
  | ind fuel ih =>
    intro cur s hl h1 h2
    cases s with
    | nil =>
      have e : tokenizeQuotes fuel cur [] = flushTok cur := by cases fuel <;> rfl
      rw [e]
      have := flush cur [] [] h1 h2 (.inl rfl) .nil
      simpa using this
    | cons c rest =>
      cases fuel with
      | zero => simp at hl
      | succ fuel =>
        have quote : ∀ d : Bool, ∃ ps', (if rest.contains (closing d) then
            flushTok cur ++ .quote (rest.takeWhile (· ≠ closing d)) d ::
              tokenizeQuotes fuel [] (rest.drop ((rest.takeWhile (· ≠ closing d)).length + 1))
            else flushTok cur ++ [.text (opening d :: rest)]) = ps'.map pieceTok ∧ Stretches (cur ++ opening d :: rest) ps' := by
          intro d
          split
          · rename_i hq
            have hq : closing d ∈ rest := by simpa using hq
            have e := takeWhile_drop hq
            generalize htw : rest.takeWhile (· ≠ closing d) = q at e
            generalize hdr : rest.drop (q.length + 1) = rest' at e
            have hnq : closing d ∉ q := by
              rw [← htw]
              intro h
              have := List.all_takeWhile (p := fun c => decide (c ≠ closing d)) (l := rest)
              rw [List.all_eq_true] at this
              simpa using this _ h
            obtain ⟨ps, g1, g2⟩ := ih fuel (by omega) [] rest' (by
              have := congrArg List.length e
              simp at this hl
              omega) (by simp) (by simp)
            rw [g1]
            have g3 := Stretches.quote d q rest' ps hnq g2
            have := flush cur (opening d :: q ++ closing d :: rest') (.quote d q :: ps) h1 h2 (.inr ⟨d, _, rfl⟩) g3
            simp only [List.map_cons, pieceTok, List.cons_append] at this
            rw [e]
            exact this
          · rename_i hq
            have hq : closing d ∉ rest := by simpa using hq
            have := flush cur (opening d :: rest) [.text (opening d :: rest)] h1 h2 (.inr ⟨d, _, rfl⟩) (.unclosed d rest hq)
            simpa [pieceTok] using this
        rw [tokenizeQuotes]
        split
        · rename_i hc; subst hc; exact quote true
        · split
          · rename_i hc; subst hc; exact quote false
          · rename_i hc1 hc2
            obtain ⟨ps, g1, g2⟩ := ih fuel (by omega) (cur ++ [c]) rest (by simpa using hl)
              (by simp [h1, Ne.symm hc1]) (by simp [h2, Ne.symm hc2])
            exact ⟨ps, g1, by simpa using g2⟩

theorem pieces_mem {s : List Char} {ps : List Stretch} (h : Stretches s ps) :
    (∀ t, .text t ∈ ps → ∀ c ∈ t, c ∈ s) ∧ ∀ d t, .quote d t ∈ ps → (∀ c ∈ t, c ∈ s) ∧ closing d ∈ s ∧ closing d ∉ t ∧ t.length < s.length := by
  induction h with
  | nil => simp
  | text s rest ps _ _ _ _ _ ih =>
    refine ⟨fun t ht c hc => ?_, fun d t ht => ?_⟩
    · rcases List.mem_cons.mp ht with e | ht
      · cases e; simp [hc]
      · simp [ih.1 t ht c hc]
    · have := ih.2 d t (by simpa using ht)
      exact ⟨fun c hc => by simp [this.1 c hc], by simp [this.2.1], this.2.2.1, by have := this.2.2.2; simp; omega⟩
  | quote d s rest ps hs _ ih =>
    refine ⟨fun t ht c hc => ?_, fun d' t ht => ?_⟩
    · have := ih.1 t (by simpa using ht) c hc
      simp [this]
    · rcases List.mem_cons.mp ht with e | ht
      · cases e
        exact ⟨fun c hc => by simp [hc], by simp, hs, by simp; omega⟩
      · have := ih.2 d' t ht
        exact ⟨fun c hc => by simp [this.1 c hc], by simp [this.2.1], this.2.2.1, by have := this.2.2.2; simp; omega⟩
  | unclosed d rest _ =>
    refine ⟨fun t ht c hc => ?_, fun d' t ht => by simp at ht⟩
    simp at ht
    rw [ht] at hc
    exact hc

theorem inQuotes_eq (d : Bool) (s : List Char) : inQuotes d s = opening d :: s ++ [closing d] := by
  cases d <;> rfl

variable {R : Bool → List Char → List Char → Prop}

/-- The assumption on texts. -/
def TextRule (u : Uni) (n : Nouns) (R : Bool → List Char → List Char → Prop) : Prop :=
  ∀ first s, '�' ∉ s → R first s (processText u n first s).1 ∧
    ((processText u n first s).2 = true ↔ first = true ∧ ¬ HasWord s)

theorem quotedToks_ok (hR : TextRule u n R) {q : List Char → Bool → List Char} {Q : List Char → List Char → Prop} (f0 : Bool) :
    ∀ (ps : List Stretch) (a : List (Stretch × List Char)) (first : Bool),
    (∀ t, .text t ∈ ps → '�' ∉ t) → (∀ d t, .quote d t ∈ ps → ∃ o', q t d = opening d :: o' ++ [closing d] ∧ Q t o') →
    StretchesOk R Q true f0 a →
    (first = true ↔ f0 = true ∧ (∀ t x, (.text t, x) ∈ a → ¬ HasWord t) ∧ ∀ d t x, (.quote d t, x) ∉ a) →
    ∃ bs : List (Stretch × List Char), bs.map (·.1) = ps ∧ StretchesOk R Q true f0 (a ++ bs) ∧
      processQuotedToks u n q first (ps.map pieceTok) = bs.flatMap (·.2)
  | [], a, first, _, _, ha, _ => ⟨[], rfl, by simpa using ha, rfl⟩
  | .text s :: ps, a, first, ht, hq, ha, hf => by
    obtain ⟨h1, h2⟩ := hR first s (ht s (by simp))
    have hA : StretchesOk R Q true f0 (a ++ [(.text s, (processText u n first s).1)]) := by
      refine ⟨?_, ?_⟩
      · intro x s' o b e
        rcases List.eq_nil_or_concat b with rfl | ⟨b', z, rfl⟩
        · have := List.append_inj' (t₁ := [(Stretch.text s, (processText u n first s).1)]) (t₂ := [(Stretch.text s', o)]) e rfl
          simp at this
          obtain ⟨rfl, rfl, rfl⟩ := this
          exact ⟨first, by rw [hf]; simp, h1⟩
        · rw [List.concat_eq_append] at e
          have e' : a ++ [(Stretch.text s, (processText u n first s).1)] = (x ++ (.text s', o) :: b') ++ [z] := by simpa using e
          exact ha.text x s' o b' (List.append_inj' e' rfl).1
      · intro d t o hm
        exact ha.quote d t o (by simpa using hm)
    have hB : (processText u n first s).2 = true ↔ f0 = true ∧ (∀ t x, (.text t, x) ∈ (a ++ [(.text s, (processText u n first s).1)]) → ¬ HasWord t) ∧ ∀ d t x, (.quote d t, x) ∉ (a ++ [(.text s, (processText u n first s).1)]) := by
      rw [h2, hf]
      simp only [List.mem_append, List.mem_singleton, Prod.mk.injEq, Stretch.text.injEq, reduceCtorEq, false_and, or_false]
      constructor
      · rintro ⟨⟨h1, h2, h3⟩, h4⟩
        refine ⟨h1, ?_, h3⟩
        rintro t x (h | ⟨rfl, _⟩)
        · exact h2 t x h
        · exact h4
      · rintro ⟨h1, h2, h3⟩
        exact ⟨⟨h1, fun t x h => h2 t x (.inl h), h3⟩, h2 s _ (.inr ⟨rfl, rfl⟩)⟩
    obtain ⟨bs, g1, g2, g3⟩ := quotedToks_ok hR f0 ps (a ++ [(.text s, (processText u n first s).1)]) (processText u n first s).2
      (fun t h => ht t (by simp [h])) (fun d t h => hq d t (by simp [h])) hA hB
    exact ⟨(.text s, (processText u n first s).1) :: bs, by simp [g1], by simpa using g2, by
        simp only [List.map_cons, pieceTok, processQuotedToks]
        rw [g3]; rfl⟩
  | .quote d s :: ps, a, first, ht, hq, ha, hf => by
    obtain ⟨o', h1, h2⟩ := hq d s (by simp)
    have hA : StretchesOk R Q true f0 (a ++ [(.quote d s, q s d)]) := by
      refine ⟨?_, ?_⟩
      · intro x s' o b e
        rcases List.eq_nil_or_concat b with rfl | ⟨b', z, rfl⟩
        · have := List.append_inj' (t₁ := [(Stretch.quote d s, q s d)]) (t₂ := [(Stretch.text s', o)]) e rfl
          simp at this
        · rw [List.concat_eq_append] at e
          have e' : a ++ [(Stretch.quote d s, q s d)] = (x ++ (.text s', o) :: b') ++ [z] := by simpa using e
          exact ha.text x s' o b' (List.append_inj' e' rfl).1
      · intro d' t o hm
        simp only [List.mem_append, List.mem_singleton, Prod.mk.injEq, Stretch.quote.injEq] at hm
        rcases hm with hm | ⟨⟨rfl, rfl⟩, rfl⟩
        · exact ha.quote d' t o hm
        · exact ⟨o', h1, h2⟩
    have hB : false = true ↔ f0 = true ∧ (∀ t x, (.text t, x) ∈ (a ++ [(.quote d s, q s d)]) → ¬ HasWord t) ∧ ∀ d1 t x, (.quote d1 t, x) ∉ (a ++ [(.quote d s, q s d)]) := by
      simp only [Bool.false_eq_true, false_iff]
      rintro ⟨_, _, h⟩
      exact h d s _ (by simp; exact .inr rfl)
    obtain ⟨bs, g1, g2, g3⟩ := quotedToks_ok hR f0 ps (a ++ [(.quote d s, q s d)]) false
      (fun t h => ht t (by simp [h])) (fun d t h => hq d t (by simp [h])) hA hB
    exact ⟨(.quote d s, q s d) :: bs, by simp [g1], by simpa using g2, by
        simp only [List.map_cons, pieceTok, processQuotedToks]
        rw [g3]; rfl⟩

theorem processQuoted_ok (hR : TextRule u n R) {Q : List Char → List Char → Prop} (fuel : Nat) (s : List Char) (double : Bool)
    (hm : '�' ∉ s) (hq : ∀ d t, (∀ c ∈ t, c ∈ s) → closing d ∈ s → closing d ∉ t → t.length < s.length →
      ∃ o', processQuoted u n fuel t d = opening d :: o' ++ [closing d] ∧ Q t o') :
    ∃ o', processQuoted u n (fuel + 1) s double = opening double :: o' ++ [closing double] ∧ Quoted u R Q s o' := by
  rw [processQuoted, inQuotes_eq]
  refine ⟨_, rfl, ?_⟩
  split
  · rename_i c hc
    split
    · rename_i hu
      obtain ⟨ps, h1, h2⟩ := tokenizeQuotes_pieces s.length [] s (Nat.le_refl _) (by simp) (by simp)
      rw [List.nil_append] at h2
      have hmem := pieces_mem h2
      obtain ⟨bs, g1, g2, g3⟩ := quotedToks_ok hR (q := processQuoted u n fuel) (Q := Q) true ps [] true
        (fun t ht hx => hm (hmem.1 t ht _ hx))
        (fun d t ht => by
          obtain ⟨k1, k2, k3, k4⟩ := hmem.2 d t ht
          exact hq d t k1 k2 k3 k4) ⟨by intro a s o b e; simp at e, by simp⟩ (by simp)
      refine .inr ⟨⟨c, hc, hu⟩, bs, by rw [g1]; exact h2, by simpa using g2, ?_⟩
      rw [h1, g3]
    · rename_i hu
      exact .inl ⟨fun d hd => by rw [hc] at hd; cases hd; simpa using hu, rfl⟩
  · rename_i hc
    exact .inl ⟨fun d hd => by rw [hc] at hd; simp at hd, rfl⟩

theorem processQuoted_two (hR : TextRule u n R) {s : List Char} (d : Bool) (hm : '�' ∉ s) (hc : closing d ∉ s) :
    ∃ o', processQuoted u n s.length s d = opening d :: o' ++ [closing d] ∧
      Quoted u R (Quoted u R fun _ _ => False) s o' := by
  cases hl : s.length with
  | zero =>
    have : s = [] := List.length_eq_zero_iff.mp hl
    subst this
    exact ⟨[], by rw [processQuoted, inQuotes_eq], .inl ⟨by simp, rfl⟩⟩
  | succ fuel =>
    refine processQuoted_ok hR fuel s d hm ?_
    intro d' t h1 h2 h3 h4
    have hdd : d' ≠ d := by rintro rfl; exact hc h2
    cases ht : t.length with
    | zero =>
      have : t = [] := List.length_eq_zero_iff.mp ht
      subst this
      refine ⟨[], ?_, .inl ⟨by simp, rfl⟩⟩
      cases fuel <;> simp [processQuoted, inQuotes_eq]
    | succ m =>
      cases fuel with
      | zero => omega
      | succ fuel =>
        refine processQuoted_ok hR fuel t d' (fun h => hm (h1 _ h)) ?_
        intro d'' t' k1 k2 k3 _
        exfalso
        cases d'' <;> cases d' <;> cases d <;> first
          | exact hdd rfl
          | exact h3 k2
          | exact hc (h1 _ k2)

theorem sentenceToks_ok (hR : TextRule u n R) {Q : List Char → List Char → Prop} (f0 : Bool) :
    ∀ (ps : List Stretch) (a : List (Stretch × List Char)) (first : Bool),
    (∀ t, .text t ∈ ps → '�' ∉ t) → (∀ d t, .quote d t ∈ ps → ∃ o', processQuoted u n t.length t d = opening d :: o' ++ [closing d] ∧ Q t o') →
    StretchesOk R Q false f0 a →
    (first = true ↔ f0 = true ∧ ∀ t x, (.text t, x) ∈ a → ¬ HasWord t) →
    ∃ bs : List (Stretch × List Char), bs.map (·.1) = ps ∧ StretchesOk R Q false f0 (a ++ bs) ∧
      ∃ first', ∀ ts, sentenceToks u n first (ps.map pieceTok ++ ts) = bs.flatMap (·.2) ++ sentenceToks u n first' ts
  | [], a, first, _, _, ha, _ => ⟨[], rfl, by simpa using ha, first, fun _ => rfl⟩
  | .text s :: ps, a, first, ht, hq, ha, hf => by
    obtain ⟨h1, h2⟩ := hR first s (ht s (by simp))
    have hA : StretchesOk R Q false f0 (a ++ [(.text s, (processText u n first s).1)]) := by
      refine ⟨?_, ?_⟩
      · intro x s' o b e
        rcases List.eq_nil_or_concat b with rfl | ⟨b', z, rfl⟩
        · have := List.append_inj' (t₁ := [(Stretch.text s, (processText u n first s).1)]) (t₂ := [(Stretch.text s', o)]) e rfl
          simp at this
          obtain ⟨rfl, rfl, rfl⟩ := this
          exact ⟨first, by rw [hf]; simp, h1⟩
        · rw [List.concat_eq_append] at e
          have e' : a ++ [(Stretch.text s, (processText u n first s).1)] = (x ++ (.text s', o) :: b') ++ [z] := by simpa using e
          exact ha.text x s' o b' (List.append_inj' e' rfl).1
      · intro d t o hm
        exact ha.quote d t o (by simpa using hm)
    have hB : (processText u n first s).2 = true ↔ f0 = true ∧ ∀ t x, (.text t, x) ∈ (a ++ [(.text s, (processText u n first s).1)]) → ¬ HasWord t := by
      rw [h2, hf]
      simp only [List.mem_append, List.mem_singleton, Prod.mk.injEq, Stretch.text.injEq]
      constructor
      · rintro ⟨⟨h1, h2⟩, h4⟩
        refine ⟨h1, ?_⟩
        rintro t x (h | ⟨rfl, _⟩)
        · exact h2 t x h
        · exact h4
      · rintro ⟨h1, h2⟩
        exact ⟨⟨h1, fun t x h => h2 t x (.inl h)⟩, h2 s _ (.inr ⟨rfl, rfl⟩)⟩
    obtain ⟨bs, g1, g2, f', g3⟩ := sentenceToks_ok hR f0 ps (a ++ [(.text s, (processText u n first s).1)]) (processText u n first s).2
      (fun t h => ht t (by simp [h])) (fun d t h => hq d t (by simp [h])) hA hB
    exact ⟨(.text s, (processText u n first s).1) :: bs, by simp [g1], by simpa using g2, f', fun ts => by
        simp only [List.map_cons, List.cons_append, pieceTok, sentenceToks]
        rw [g3]; simp⟩
  | .quote d s :: ps, a, first, ht, hq, ha, hf => by
    obtain ⟨o', h1, h2⟩ := hq d s (by simp)
    have hA : StretchesOk R Q false f0 (a ++ [(.quote d s, processQuoted u n s.length s d)]) := by
      refine ⟨?_, ?_⟩
      · intro x s' o b e
        rcases List.eq_nil_or_concat b with rfl | ⟨b', z, rfl⟩
        · have := List.append_inj' (t₁ := [(Stretch.quote d s, processQuoted u n s.length s d)]) (t₂ := [(Stretch.text s', o)]) e rfl
          simp at this
        · rw [List.concat_eq_append] at e
          have e' : a ++ [(Stretch.quote d s, processQuoted u n s.length s d)] = (x ++ (.text s', o) :: b') ++ [z] := by simpa using e
          exact ha.text x s' o b' (List.append_inj' e' rfl).1
      · intro d' t o hm
        simp only [List.mem_append, List.mem_singleton, Prod.mk.injEq, Stretch.quote.injEq] at hm
        rcases hm with hm | ⟨⟨rfl, rfl⟩, rfl⟩
        · exact ha.quote d' t o hm
        · exact ⟨o', h1, h2⟩
    have hB : first = true ↔ f0 = true ∧ ∀ t x, (.text t, x) ∈ (a ++ [(.quote d s, processQuoted u n s.length s d)]) → ¬ HasWord t := by
      rw [hf]
      simp
    obtain ⟨bs, g1, g2, f', g3⟩ := sentenceToks_ok hR f0 ps (a ++ [(.quote d s, processQuoted u n s.length s d)]) first
      (fun t h => ht t (by simp [h])) (fun d t h => hq d t (by simp [h])) hA hB
    exact ⟨(.quote d s, processQuoted u n s.length s d) :: bs, by simp [g1], by simpa using g2, f', fun ts => by
        simp only [List.map_cons, List.cons_append, pieceTok, sentenceToks]
        rw [g3]; simp⟩

/-! ### Headings -/

/-- What becomes of a piece of text between code. -/
def PieceRule (u : Uni) (R : Bool → List Char → List Char → Prop) (first : Bool) (s o : List Char) : Prop :=
  ∃ t, Curled u s t ∧ ∃ ps : List (Stretch × List Char), Stretches t (ps.map (·.1)) ∧
    StretchesOk R (Quoted u R (Quoted u R fun _ _ => False)) false first ps ∧ o = ps.flatMap (·.2)

theorem tokenizeText_rule (hR : TextRule u n R) {cur : List Char} (hm : '�' ∉ cur) (first : Bool) :
    ∃ x first', PieceRule u R first cur x ∧
      ∀ us, sentenceToks u n first (tokenizeText u cur ++ us) = x ++ sentenceToks u n first' us := by
  rw [tokenizeText]
  have hm' : '�' ∉ normQuotes u false none cur := by
    intro h
    rcases mem_normQuotes _ _ _ h with h' | h'
    · exact hm h'
    · exact absurd h' (by decide)
  obtain ⟨ps, h1, h2⟩ := tokenizeQuotes_pieces (normQuotes u false none cur).length [] _ (Nat.le_refl _) (by simp) (by simp)
  rw [List.nil_append] at h2
  have hmem := pieces_mem h2
  obtain ⟨bs, g1, g2, f', g3⟩ := sentenceToks_ok hR (Q := Quoted u R (Quoted u R fun _ _ => False)) first ps [] first
    (fun t ht hx => hm' (hmem.1 t ht _ hx))
    (fun d t ht => by
      obtain ⟨k1, k2, k3, k4⟩ := hmem.2 d t ht
      exact processQuoted_two hR d (fun h => hm' (k1 _ h)) k3)
    ⟨by intro a s o b e; simp at e, by simp⟩ (by simp)
  rw [h1]
  exact ⟨_, f', ⟨_, normQuotes_curled u cur, bs, by rw [g1]; exact h2, by simpa using g2, rfl⟩, g3⟩

/-- The rule for the pieces between backquotes. -/
def Slices (u : Uni) (R : Bool → List Char → List Char → Prop) : Bool → Bool → List (List Char) → List (List Char) → Prop
  | _, _, [], [] => True
  | false, first, a :: as, b :: bs => PieceRule u R first a b ∧ Slices u R true false as bs
  | true, _, a :: as, b :: bs => b = a ∧ Slices u R false false as bs
  | _, _, _, _ => False

theorem tokenizeCode_slices (hR : TextRule u n R) : ∀ (fuel : Nat) (s cur : List Char) (first : Bool), s.length ≤ fuel →
    '�' ∉ cur ++ s → '`' ∉ cur →
    ∃ outs, sentenceToks u n first (tokenizeCode u fuel cur s) = joinWith ['`'] outs ∧ outs ≠ [] ∧
      Slices u R false first (splitOn '`' (cur ++ s)) outs := by
  intro fuel
  induction fuel using Nat.strongRecOn with
  | ind fuel ih =>
    intro s cur first hl ha hc
    cases s with
    | nil =>
      rw [List.append_nil] at ha ⊢
      have : tokenizeCode u fuel cur [] = tokenizeText u cur := by cases fuel <;> rfl
      rw [this]
      obtain ⟨x, first', h1, h2⟩ := tokenizeText_rule hR ha first
      refine ⟨[x], ?_, by simp, ?_⟩
      · have := h2 []
        rw [List.append_nil, sentenceToks, List.append_nil] at this
        rw [this]; simp [joinWith]
      · rw [splitOn_of_not_mem hc]
        exact ⟨h1, trivial⟩
    | cons c rest =>
      cases fuel with
      | zero => simp at hl
      | succ fuel =>
        rw [tokenizeCode]
        split
        · rename_i hb
          subst hb
          have hacur : '�' ∉ cur := fun h => ha (by simp [h])
          have harest : '�' ∉ rest := fun h => ha (by simp [h])
          obtain ⟨x, first', h1, h2⟩ := tokenizeText_rule hR hacur first
          rw [h2, sentenceToks, splitOn_append_sep hc]
          by_cases hq : '`' ∈ rest
          · have e := takeWhile_drop hq
            generalize htw : rest.takeWhile (· ≠ '`') = code at e
            generalize hdr : rest.drop (code.length + 1) = rest' at e
            have hcode : '`' ∉ code := by
              rw [← htw]
              intro h
              have := List.all_takeWhile (p := fun c => decide (c ≠ '`')) (l := rest)
              rw [List.all_eq_true] at this
              simpa using this _ h
            have hcs : codeSpanOf rest = '`' :: code ++ ['`'] := by
              rw [codeSpanOf, htw, if_pos (by simpa using hq)]
            have harest' : '�' ∉ rest' := fun h => harest (by rw [e]; simp [h])
            obtain ⟨outs, g1, g2, g3⟩ := ih fuel (by omega) rest' [] false (by
              have := congrArg List.length e
              simp at this hl ⊢
              omega) (by simpa using harest') (by simp)
            refine ⟨x :: code :: outs, ?_, by simp, ?_⟩
            · rw [g1, hcs, joinWith_cons _ _ (by simp), joinWith_cons _ _ g2]
              simp
            · rw [e, splitOn_append_sep hcode]
              exact ⟨h1, rfl, g3⟩
          · have htw : rest.takeWhile (· ≠ '`') = rest := by
              have := List.takeWhile_append_of_pos (p := fun c => decide (c ≠ '`')) (l₁ := rest) (l₂ := []) (by
                intro c hc
                simp only [decide_eq_true_eq]
                rintro rfl
                exact hq hc)
              simpa using this
            refine ⟨[x, rest], ?_, by simp, ?_⟩
            · rw [htw, List.drop_of_length_le (by omega), codeSpanOf, htw, if_neg (by simpa using hq)]
              have : tokenizeCode u fuel [] [] = [] := by cases fuel <;> rfl
              rw [this, sentenceToks]
              simp [joinWith]
            · rw [splitOn_of_not_mem hq]
              exact ⟨h1, rfl, trivial⟩
        · rename_i hb
          obtain ⟨outs, g1, g2, g3⟩ := ih fuel (by omega) rest (cur ++ [c]) first (by simpa using hl) (by simpa using ha)
            (by simp [hc, Ne.symm hb])
          exact ⟨outs, g1, g2, by simpa using g3⟩

theorem slices_spec : ∀ (as bs : List (List Char)) (k : Nat) (first : Bool), (first = true ↔ k = 0) →
    Slices u R (k % 2 == 1) first as bs →
    bs.length = as.length ∧ ∀ i s o, as[i]? = some s → bs[i]? = some o →
      ((k + i) % 2 = 1 → o = s) ∧ ((k + i) % 2 = 0 → PieceRule u R (k + i == 0) s o)
  | [], [], _, _, _, _ => ⟨rfl, by simp⟩
  | [], _ :: _, k, _, _, h => by cases hk : (k % 2 == 1) <;> rw [hk] at h <;> exact h.elim
  | _ :: _, [], k, _, _, h => by cases hk : (k % 2 == 1) <;> rw [hk] at h <;> exact h.elim
  | a :: as, b :: bs, k, first, hf, h => by
    have key : Slices u R ((k + 1) % 2 == 1) false as bs ∧ ((k % 2 = 1 → b = a) ∧ (k % 2 = 0 → PieceRule u R first a b)) := by
      rcases Nat.mod_two_eq_zero_or_one k with hk | hk
      · rw [hk] at h
        have h1 : (k + 1) % 2 = 1 := by omega
        rw [h1]
        exact ⟨h.2, by simp [hk], fun _ => h.1⟩
      · rw [hk] at h
        have h1 : (k + 1) % 2 = 0 := by omega
        rw [h1]
        exact ⟨h.2, fun _ => h.1, by simp [hk]⟩
    have ih := slices_spec as bs (k + 1) false (by simp) key.1
    refine ⟨by simp [ih.1], ?_⟩
    intro i s o h1 h2
    cases i with
    | zero =>
      simp only [List.getElem?_cons_zero, Option.some.injEq] at h1 h2
      subst h1; subst h2
      have : first = (k + 0 == 0) := by
        rw [Bool.eq_iff_iff, hf]; simp
      rw [← this]
      exact key.2
    | succ i =>
      simp only [List.getElem?_cons_succ] at h1 h2
      have := ih.2 i s o h1 h2
      rw [show k + 1 + i = k + (i + 1) by omega] at this
      exact this

theorem toSentenceCase_ok (hR : TextRule u n R) {text : List Char} (hm : '�' ∉ text) :
    Sentence u R text (toSentenceCase u n text) := by
  obtain ⟨outs, h1, _, h2⟩ := tokenizeCode_slices hR text.length text [] true (Nat.le_refl _) (by simpa using hm) (by simp)
  rw [List.nil_append] at h2
  obtain ⟨h3, h4⟩ := slices_spec _ _ 0 true (by simp) h2
  refine ⟨outs, h1, h3, ?_⟩
  intro i s o k1 k2
  have := h4 i s o k1 k2
  rw [Nat.zero_add] at this
  exact this

end

end Hongdown
