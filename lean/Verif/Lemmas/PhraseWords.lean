import Verif.Lemmas.Phrases

/-!
# Words with nouns of several words in headings
-/

namespace Hongdown
open Model Spec

section
variable {u : Uni} {f : Char → List Char} {n : Nouns} {found : List Found}

/-- The replacements of the nouns that were found. -/
def repsOf (found : List Found) : List (List Char × List Char) :=
  found.mapIdx fun k g => (placeholder k, g.noun ++ g.own)

/-- Atoms with nouns that were found, not directly after a letter or digit. -/
structure SafeAtoms (u : Uni) (found : List Found) (l : List Atom) : Prop where
  mark : ∀ c, .char c ∈ l → c ≠ '�'
  found : ∀ i, .noun i ∈ l → ∃ g, found[i]? = some g
  edge : ∀ a c i b, l = a ++ .char c :: .noun i :: b → u.alphanumeric c = false

theorem SafeAtoms.infix {l : List Atom} (h : SafeAtoms u found l) {x m y : List Atom} (e : l = x ++ m ++ y) : SafeAtoms u found m where
  mark c hc := h.mark c (by rw [e]; simp [hc])
  found i hi := h.found i (by rw [e]; simp [hi])
  edge a c i b he := h.edge (x ++ a) c i (b ++ y) (by rw [e, he]; simp)

theorem SafeAtoms.tail {a : Atom} {l : List Atom} (h : SafeAtoms u found (a :: l)) : SafeAtoms u found l :=
  h.infix (x := [a]) (y := []) (by simp)

theorem repsOk (found : List Found) : RepsOk (repsOf found) := by
  intro r hr
  rw [repsOf, List.mem_mapIdx] at hr
  obtain ⟨i, hi, rfl⟩ := hr
  exact ⟨i, rfl⟩

theorem enc_atoms : ∀ {l : List Atom}, SafeAtoms u found l →
    Enc u (found.map fun g => g.noun ++ g.own) (encAtoms l) (l.flatMap (Atom.result found))
  | [], _ => .nil
  | .char c :: l, h => by
    refine .char c _ _ (h.mark c (by simp)) ?_ (enc_atoms h.tail)
    intro hc he
    cases l with
    | nil => simp at he
    | cons a l =>
      cases a with
      | char d =>
        exact h.mark d (by simp) (Option.some.inj he)
      | noun i =>
        rw [h.edge [] c i l rfl] at hc
        exact absurd hc (by simp)
  | .noun i :: l, h => by
    obtain ⟨g, hg⟩ := h.found i (by simp)
    have e : (Atom.noun i :: l).flatMap (Atom.result found) = (g.noun ++ g.own) ++ l.flatMap (Atom.result found) := by
      rw [List.flatMap_cons]
      simp [Atom.result, hg]
    rw [e]
    exact .ph i _ _ _ (by rw [List.getElem?_map, hg]; rfl) (enc_atoms h.tail)

theorem mem_encAtoms {c : Char} (hc : Cut c) {l : List Atom} : c ∈ encAtoms l ↔ .char c ∈ l := by
  rw [encAtoms, List.mem_flatMap]
  constructor
  · rintro ⟨a, ha, h⟩
    cases a with
    | char d => simp only [encAtom, List.mem_singleton] at h; rw [h]; exact ha
    | noun i => exact absurd h (cut_placeholder hc i)
  · intro h
    exact ⟨_, h, by simp [encAtom]⟩

theorem mark_encAtoms {l : List Atom} (h : HasNoun l) : '�' ∈ encAtoms l := by
  obtain ⟨i, hi⟩ := h
  exact List.mem_flatMap.2 ⟨_, hi, mark_placeholder i⟩

theorem atoms_plain : ∀ {l : List Atom}, ¬ HasNoun l → ∃ cs : List Char, l = cs.map Atom.char
  | [], _ => ⟨[], rfl⟩
  | .char c :: l, h => by
    obtain ⟨cs, rfl⟩ := atoms_plain (l := l) (fun ⟨i, hi⟩ => h ⟨i, by simp [hi]⟩)
    exact ⟨c :: cs, rfl⟩
  | .noun i :: l, h => absurd ⟨i, by simp⟩ h

theorem hasNoun_chars (cs : List Char) : ¬ HasNoun (cs.map Atom.char) := by
  rintro ⟨i, hi⟩; simp at hi

/-- All that is assumed of the nouns. -/
structure NounWorld (u : Uni) (f : Char → List Char) (n : Nouns) (found : List Found) : Prop where
  fold : LetterFold u f
  nouns : NounsOk f n
  mark : MarkOk u
  found : ∀ g ∈ found, ' ' ∈ g.noun ++ g.own ∧ '�' ∉ g.noun ++ g.own

variable (W : NounWorld u f n found)
include W

theorem restore_atoms {l : List Atom} (h : SafeAtoms u found l) :
    restorePlaceholders (encAtoms l) (repsOf found) = l.flatMap (Atom.result found) := by
  refine restore_all (R := found.map fun g => g.noun ++ g.own) ?_ ((enc_atoms h).encS fun c hc => (W.fold.digit c hc).1) _ ?_
  · intro x hx
    obtain ⟨g, hg, rfl⟩ := List.mem_map.1 hx
    exact W.found g hg
  · refine List.ext_getElem? fun i => ?_
    simp only [repsOf, List.getElem?_mapIdx, List.getElem?_map, Option.map_map, Function.comp_def, Nat.zero_add]

theorem mark_wordSimple {w : List Char} (hm : '�' ∉ w) (first : Bool) : '�' ∉ processWordSimple u n w first := by
  have same : ∀ {r : List Char}, foldCase f r = foldCase f w → '�' ∉ r := by
    intro r e
    rw [← foldCase_mark W.fold, e, foldCase_mark W.fold]; exact hm
  unfold processWordSimple
  split
  · simp
  split
  · exact hm
  split
  · exact hm
  split
  · exact hm
  split
  · rename_i h; exact same (foldCase_pronounI W.fold h)
  split
  · rename_i h; exact same (foldCase_noun W.fold W.nouns h)
  split
  · cases w with
    | nil => simpa [capitalizeFirst] using hm
    | cons c w =>
      rw [capitalizeFirst]
      intro h
      rcases List.mem_append.1 h with h | h
      · exact hm (by simp [W.mark.upper c h])
      · have : '�' ∉ u.strLower w := by
          rw [← foldCase_mark W.fold, W.fold.lower, foldCase_mark W.fold]
          exact fun h => hm (by simp [h])
        exact this h
  · exact same (W.fold.lower w)

omit W in
theorem mem_joinSep {c sep : Char} : ∀ {l : List (List Char)}, c ∈ joinWith [sep] l → c = sep ∨ ∃ x ∈ l, c ∈ x
  | [], h => by simp [joinWith] at h
  | [x], h => .inr ⟨x, by simp, by simpa [joinWith] using h⟩
  | x :: y :: l, h => by
    rw [joinWith_cons [sep] x (l := y :: l) (by simp)] at h
    simp only [List.mem_append, List.mem_singleton] at h
    rcases h with (h | h) | h
    · exact .inr ⟨x, by simp, h⟩
    · exact .inl h
    · rcases mem_joinSep h with h | ⟨z, hz, h⟩
      · exact .inl h
      · exact .inr ⟨z, List.mem_cons_of_mem _ hz, h⟩

theorem mark_word {w : List Char} (hm : '�' ∉ w) (first : Bool) : '�' ∉ processWord u n w first := by
  have parts : ∀ sep, sep ≠ '�' → '�' ∉ processParts u n sep w first := by
    intro sep hs h
    rcases mem_joinSep h with h | ⟨x, hx, h⟩
    · exact hs h.symm
    · rw [List.mem_mapIdx] at hx
      obtain ⟨i, hi, rfl⟩ := hx
      exact mark_wordSimple W (fun hx => hm (mem_splitOn_subset (List.getElem_mem hi) hx)) _ h
  unfold processWord
  split
  · rename_i r h
    split at h
    · rw [← foldCase_mark W.fold, foldCase_noun W.fold W.nouns h, foldCase_mark W.fold]; exact hm
    · cases h
  · split
    · exact parts '-' (by decide)
    split
    · exact parts '/' (by decide)
    · exact mark_wordSimple W hm first

omit W in
/-- The parts of a word. -/
theorem split_atoms (sep : Char) : ∀ w : List Atom, ∃ parts : List (List Atom), parts ≠ [] ∧
    w = (parts.intersperse [.char sep]).flatten ∧ (∀ part ∈ parts, .char sep ∉ part) ∧
    encAtoms w = joinWith [sep] (parts.map encAtoms) ∧ ∀ part ∈ parts, ∃ x y, w = x ++ part ++ y
  | [] => ⟨[[]], by simp, rfl, by simp, rfl, fun part h => ⟨[], [], by simp at h; simp [h]⟩⟩
  | a :: w => by
    obtain ⟨parts, h0, h1, h2, h3, h4⟩ := split_atoms sep w
    obtain ⟨p, ps, rfl⟩ := List.exists_cons_of_ne_nil h0
    by_cases ha : a = .char sep
    · subst ha
      refine ⟨[] :: p :: ps, by simp, ?_, ?_, ?_, ?_⟩
      · rw [List.intersperse_cons₂, h1]; simp
      · intro part hp
        rcases List.mem_cons.1 hp with rfl | hp
        · simp
        · exact h2 part hp
      · rw [List.map_cons, joinWith_cons [sep] _ (by simp), ← h3]; rfl
      · intro part hp
        rcases List.mem_cons.1 hp with rfl | hp
        · exact ⟨[], .char sep :: w, by simp⟩
        · obtain ⟨x, y, e⟩ := h4 part hp
          exact ⟨.char sep :: x, y, by rw [e]; rfl⟩
    · refine ⟨(a :: p) :: ps, by simp, ?_, ?_, ?_, ?_⟩
      · rw [h1]
        cases ps with
        | nil => simp [List.intersperse]
        | cons q ps => simp
      · intro part hp
        rcases List.mem_cons.1 hp with rfl | hp
        · have := h2 p (by simp)
          simp [this, Ne.symm ha]
        · exact h2 part (by simp [hp])
      · have e : encAtoms (a :: w) = encAtom a ++ encAtoms w := rfl
        rw [e, h3]
        cases ps with
        | nil => simp [joinWith, encAtoms]
        | cons q ps =>
          have hne : (q :: ps).map encAtoms ≠ [] := by simp
          rw [List.map_cons, List.map_cons (l := q :: ps), joinWith_cons [sep] _ hne, joinWith_cons [sep] _ hne]
          simp [encAtoms]
      · intro part hp
        rcases List.mem_cons.1 hp with rfl | hp
        · cases ps with
          | nil => exact ⟨[], [], by rw [h1]; simp [List.intersperse]⟩
          | cons q ps => exact ⟨[], .char sep :: (List.intersperse [.char sep] (q :: ps)).flatten, by rw [h1]; simp⟩
        · obtain ⟨x, y, e⟩ := h4 part (by simp [hp])
          exact ⟨a :: x, y, by rw [e]; rfl⟩

omit W in
theorem restore_joinWith {reps : List (List Char × List Char)} (hr : RepsOk reps) {sep : Char} (hs : Cut sep) : ∀ l : List (List Char),
    restorePlaceholders (joinWith [sep] l) reps = joinWith [sep] (l.map fun x => restorePlaceholders x reps)
  | [] => by simp [joinWith, restore_id hr]
  | [x] => by simp [joinWith]
  | x :: y :: l => by
    have hne : (y :: l).map (fun x => restorePlaceholders x reps) ≠ [] := by simp
    rw [joinWith_cons [sep] x (l := y :: l) (by simp), List.map_cons, joinWith_cons [sep] _ hne, List.append_assoc, List.append_assoc,
      List.singleton_append, List.singleton_append, restore_cut hr hs, restore_joinWith hr hs (y :: l)]

/-- A word with nouns and hyphens or slashes. -/
theorem processParts_atoms {sep : Char} (hs : Cut sep) {w : List Atom} (hw : SafeAtoms u found w) (first : Bool) :
    PartsRule u n found first sep w (restorePlaceholders (processParts u n sep (encAtoms w) first) (repsOf found)) := by
  obtain ⟨parts, h0, h1, h2, h3, h4⟩ := split_atoms sep w
  have hsplit : splitOn sep (encAtoms w) = parts.map encAtoms := by
    rw [h3, splitOn_join (by simpa using h0)]
    intro p hp
    obtain ⟨q, hq, rfl⟩ := List.mem_map.1 hp
    rw [mem_encAtoms hs]
    exact h2 q hq
  refine ⟨parts.mapIdx fun i part => (part, restorePlaceholders (processWordSimple u n (encAtoms part) (first && decide (i = 0))) (repsOf found)), ?_, ?_, ?_⟩
  · have : (parts.mapIdx fun i part => (part, restorePlaceholders (processWordSimple u n (encAtoms part) (first && decide (i = 0))) (repsOf found))).map (·.1) = parts := by
      refine List.ext_getElem? fun i => ?_
      simp only [List.getElem?_mapIdx, List.getElem?_map, Option.map_map, Function.comp_def, Option.map_id']
    rw [this]
    exact h1
  · rw [processParts, hsplit, restore_joinWith (repsOk found) hs]
    congr 1
    refine List.ext_getElem? fun i => ?_
    simp only [List.getElem?_mapIdx, List.getElem?_map, Option.map_map, Function.comp_def]
  · intro i part o hp
    rw [List.getElem?_mapIdx, Option.map_eq_some_iff] at hp
    obtain ⟨p, hp1, hp2⟩ := hp
    simp only [Prod.mk.injEq] at hp2
    obtain ⟨rfl, rfl⟩ := hp2
    have hmem := List.mem_of_getElem? hp1
    obtain ⟨x, y, e⟩ := h4 p hmem
    have hsafe := hw.infix e
    refine ⟨h2 p hmem, ?_, ?_, ?_⟩
    · intro hN
      have hm := mark_encAtoms hN
      have : processWordSimple u n (encAtoms p) (first && decide (i = 0)) = encAtoms p := by
        unfold processWordSimple
        rw [if_neg (List.ne_nil_of_mem hm), if_pos (by simpa using hm)]
      rw [this, restore_atoms W hsafe]
    · rintro rfl
      simp [encAtoms, processWordSimple, restore_id (repsOk found)]
    · intro c cs e
      have hm : '�' ∉ c :: cs := fun h => hsafe.mark '�' (by rw [e]; exact List.mem_map_of_mem h) rfl
      rw [e, encAtoms_chars, restore_id (repsOk found) (mark_wordSimple W hm _)]
      have := processWordSimple_ok (u := u) n (first && decide (i = 0)) (w := c :: cs) (by simp) hm
      rw [show (i == 0) = decide (i = 0) by simp [BEq.beq]]
      exact this

/-- A word, after the nouns are put back. -/
theorem processWord_atoms {w : List Atom} (hw : SafeAtoms u found w) (h0 : w ≠ []) (first : Bool) :
    AtomRule u n found first w (restorePlaceholders (processWord u n (encAtoms w) first) (repsOf found)) := by
  have hhy : Cut '-' := ⟨by decide, by decide⟩
  have hsl : Cut '/' := ⟨by decide, by decide⟩
  have noun : HasNoun w → findProperNoun u n (encAtoms w) = none := fun h =>
    noNoun_marked W.fold W.nouns (enc_atoms hw).marked (mark_encAtoms h)
  refine ⟨?_, ?_, ?_, ?_⟩
  · rintro cs rfl
    have hm : '�' ∉ cs := fun h => hw.mark '�' (List.mem_map_of_mem h) rfl
    rw [encAtoms_chars, restore_id (repsOk found) (mark_word W hm _)]
    have h : cs ≠ [] := by simpa using h0
    refine ⟨fun h1 h2 => ?_, fun h1 => processWord_compound n first '-' (.inl rfl) h1 hm,
      fun h1 h2 => processWord_compound n first '/' (.inr ⟨rfl, h1⟩) h2 hm⟩
    rw [processWord]
    simp only [show cs.contains '-' = false by simpa using h1, show cs.contains '/' = false by simpa using h2,
      Bool.or_self, Bool.false_eq_true, if_false]
    exact processWordSimple_ok n first h hm
  · intro hN h1 h2
    have hm := mark_encAtoms hN
    have e : processWord u n (encAtoms w) first = encAtoms w := by
      rw [← mem_encAtoms hhy] at h1
      rw [← mem_encAtoms hsl] at h2
      rw [processWord]
      simp only [show (encAtoms w).contains '-' = false by simpa using h1, show (encAtoms w).contains '/' = false by simpa using h2,
        Bool.or_self, Bool.false_eq_true, if_false]
      unfold processWordSimple
      rw [if_neg (List.ne_nil_of_mem hm), if_pos (by simpa using hm)]
    rw [e, restore_atoms W hw]
  · intro hN h1
    have e : processWord u n (encAtoms w) first = processParts u n '-' (encAtoms w) first := by
      rw [← mem_encAtoms hhy] at h1
      rw [processWord, noun hN]
      simp only [show (encAtoms w).contains '-' = true by simpa using h1, Bool.true_or, if_true]
    rw [e]
    exact processParts_atoms W hhy hw first
  · intro hN h1 h2
    have e : processWord u n (encAtoms w) first = processParts u n '/' (encAtoms w) first := by
      rw [← mem_encAtoms hhy] at h1
      rw [← mem_encAtoms hsl] at h2
      rw [processWord, noun hN]
      simp only [show (encAtoms w).contains '-' = false by simpa using h1, show (encAtoms w).contains '/' = true by simpa using h2,
        Bool.or_true, if_true, Bool.false_eq_true, if_false]
    rw [e]
    exact processParts_atoms W hsl hw first

end

end Hongdown
