import Verif.Lemmas.Heading

/-! # Sentence case word by word -/

namespace Hongdown
open Model Spec

section
variable {u : Uni}

/-- Straight apostrophes between letters stay. -/
theorem normQuotes_word (opened : Bool) : ∀ (w : List Char) (prev : Option Char) (rest : List Char),
    '"' ∉ w →
    (∀ x y, w = x ++ '\'' :: y → ((x.getLast? <|> prev).any u.alphabetic = true) ∧ y.head?.any u.alphabetic = true) →
    normQuotes u opened prev (w ++ rest) = w ++ normQuotes u opened (w.getLast? <|> prev) rest
  | [], prev, rest, _, _ => by simp
  | c :: w, prev, rest, hd, ha => by
    have ih := normQuotes_word opened w (some c) rest (fun h => hd (by simp [h])) (by
      intro x y e
      have := ha (c :: x) y (by rw [e]; rfl)
      refine ⟨?_, this.2⟩
      cases x with
      | nil => simpa using this.1
      | cons a x =>
        have e2 : ((c :: a :: x).getLast? : Option Char) = (a :: x).getLast? := by simp [List.getLast?_cons_cons]
        rw [e2] at this
        cases hg : (a :: x).getLast? with
        | none => simp at hg
        | some z => rw [hg] at this; simpa using this.1)
    have e3 : (w.getLast? <|> some c) = ((c :: w).getLast? <|> prev) := by
      cases w with
      | nil => rfl
      | cons a w =>
        rw [List.getLast?_cons_cons]
        cases hg : (a :: w).getLast? with
        | none => simp at hg
        | some z => rfl
    rw [e3] at ih
    rw [List.cons_append, normQuotes]
    by_cases hq : c = '\''
    · subst hq
      rw [if_pos rfl]
      have hh := ha [] w rfl
      have : isHeadingApostrophe u opened prev (w ++ rest) = true := by
        obtain ⟨h1, h2⟩ := hh
        have h3 : (w ++ rest).head?.any u.alphabetic = true := by
          cases w with
          | nil => simp at h2
          | cons a w => simpa using h2
        have h1' : prev.any u.alphabetic = true := by simpa using h1
        unfold isHeadingApostrophe
        rw [h3, h1']
        simp
      rw [if_pos this, ih]
      rfl
    · rw [if_neg hq, if_neg (by rintro rfl; exact hd (by simp)), ih]
      rfl

/-- Text without opening quotation marks is one token. -/
theorem tokenizeQuotes_plain : ∀ (fuel : Nat) (cur s : List Char), s.length ≤ fuel → '“' ∉ s → '‘' ∉ s →
    tokenizeQuotes fuel cur s = flushTok (cur ++ s)
  | 0, cur, s, hl, _, _ => by
    have : s = [] := by simpa using hl
    simp [tokenizeQuotes, this]
  | fuel + 1, cur, [], _, _, _ => by simp [tokenizeQuotes]
  | fuel + 1, cur, c :: s, hl, h1, h2 => by
    rw [tokenizeQuotes, if_neg (by rintro rfl; exact h1 (by simp)), if_neg (by rintro rfl; exact h2 (by simp)),
      tokenizeQuotes_plain fuel (cur ++ [c]) s (by simpa using hl) (fun h => h1 (by simp [h])) (fun h => h2 (by simp [h]))]
    simp

/-- Text without backquotes is one piece. -/
theorem tokenizeCode_plain : ∀ (fuel : Nat) (cur s : List Char), s.length ≤ fuel → '`' ∉ s →
    tokenizeCode u fuel cur s = tokenizeText u (cur ++ s)
  | 0, cur, s, hl, _ => by
    have : s = [] := by simpa using hl
    simp [tokenizeCode, this]
  | fuel + 1, cur, [], _, _ => by simp [tokenizeCode]
  | fuel + 1, cur, c :: s, hl, h1 => by
    rw [tokenizeCode, if_neg (by rintro rfl; exact h1 (by simp)),
      tokenizeCode_plain fuel (cur ++ [c]) s (by simpa using hl) (fun h => h1 (by simp [h]))]
    simp

theorem multiwordNouns_nil {n : Nouns} (h : OneWordNouns n) : multiwordNouns u n = [] := by
  unfold multiwordNouns
  have : (n.builtin.map (·.1) ++ n.proper).filter (fun p =>
      p.contains ' ' && !(n.common.map u.strLower).contains (u.strLower p)) = [] := by
    rw [List.filter_eq_nil_iff]
    intro p hp
    have : ' ' ∉ p := by
      rcases List.mem_append.1 hp with hp | hp
      · obtain ⟨q, hq, rfl⟩ := List.mem_map.1 hp
        exact h.1 q hq
      · exact h.2 p hp
    simp [this]
  simp only [this]
  rfl

/-- A word is collected up to its end. -/
theorem processChars_word (n : Nouns) (first after : Bool) : ∀ (w cur rest : List Char),
    (∀ c ∈ w, isWs c = false ∧ isHeadingDelimiter c = false) →
    processChars u n first after cur (w ++ rest) = processChars u n first after (cur ++ w) rest
  | [], cur, rest, _ => by simp
  | c :: w, cur, rest, h => by
    have hc := h c (by simp)
    rw [List.cons_append, processChars]
    simp only [hc.1, hc.2, Bool.false_eq_true, if_false]
    rw [processChars_word n first after w (cur ++ [c]) rest fun d hd => h d (by simp [hd])]
    simp

theorem joinWith_cons' (a b : List Char) (l : List (List Char)) :
    joinWith [' '] (a :: b :: l) = a ++ ' ' :: joinWith [' '] (b :: l) := by
  rw [joinWith_cons _ a (l := b :: l) (by simp)]; simp

theorem processChars_words (n : Nouns) : ∀ (ws : List (List Char)) (w : List Char) (first : Bool),
    (∀ w' ∈ w :: ws, w' ≠ [] ∧ ∀ c ∈ w', isWs c = false ∧ isHeadingDelimiter c = false) →
    (processChars u n first false [] (joinWith [' '] (w :: ws))).1 =
      joinWith [' '] (processWord u n w first :: ws.map fun w => processWord u n w false)
  | [], w, first, h => by
    have := processChars_word (u := u) n first false w [] [] (h w (by simp)).2
    rw [List.append_nil] at this
    rw [joinWith, this, List.nil_append, processChars, if_neg (h w (by simp)).1, shouldCapitalize]
    cases first <;> rfl
  | w2 :: ws, w, first, h => by
    rw [joinWith_cons', processChars_word n first false w [] _ (h w (by simp)).2, List.nil_append, processChars]
    rw [if_pos (by decide), if_neg (h w (by simp)).1]
    simp only []
    rw [processChars_words n ws w2 false (fun w' hw' => h w' (List.mem_cons_of_mem _ hw')), List.map_cons,
      joinWith_cons', shouldCapitalize]
    cases first <;> rfl

theorem normQuotes_words : ∀ (ws : List (List Char)) (prev : Option Char), (∀ w ∈ ws, PlainWord u w) →
    normQuotes u false prev (joinWith [' '] ws) = joinWith [' '] ws
  | [], prev, _ => rfl
  | [w], prev, h => by
    have hw := h w (by simp)
    have := normQuotes_word (u := u) false w prev [] (fun hm => (hw.2.1 _ hm).2 (by simp)) (by
      intro x y e
      obtain ⟨⟨c, h1, h2⟩, d, h3, h4⟩ := hw.2.2 x y e
      rw [h1, h3]
      exact ⟨h2, h4⟩)
    rw [joinWith]
    simpa [normQuotes] using this
  | w :: w2 :: ws, prev, h => by
    have hw := h w (by simp)
    have := normQuotes_word (u := u) false w prev (' ' :: joinWith [' '] (w2 :: ws)) (fun hm => (hw.2.1 _ hm).2 (by simp)) (by
      intro x y e
      obtain ⟨⟨c, h1, h2⟩, d, h3, h4⟩ := hw.2.2 x y e
      rw [h1, h3]
      exact ⟨h2, h4⟩)
    rw [joinWith_cons', this, normQuotes, if_neg (by decide), if_neg (by decide),
      normQuotes_words (w2 :: ws) _ (fun w' hw' => h w' (List.mem_cons_of_mem _ hw'))]

theorem mem_joinWords {c : Char} : ∀ {ws : List (List Char)}, c ∈ joinWith [' '] ws → c = ' ' ∨ ∃ w ∈ ws, c ∈ w
  | [], h => by simp [joinWith] at h
  | [w], h => .inr ⟨w, by simp, by simpa [joinWith] using h⟩
  | w :: w2 :: ws, h => by
    rw [joinWith_cons'] at h
    simp only [List.mem_append, List.mem_cons (a := c) (b := ' ')] at h
    rcases h with h | h | h
    · exact .inr ⟨w, by simp, h⟩
    · exact .inl h
    · rcases mem_joinWords h with h | ⟨w', h1, h2⟩
      · exact .inl h
      · exact .inr ⟨w', List.mem_cons_of_mem _ h1, h2⟩

/-- A heading of plain words is treated word by word. -/
theorem sentence_words {n : Nouns} (hn : OneWordNouns n) (w : List Char) (ws : List (List Char))
    (h : ∀ x ∈ w :: ws, PlainWord u x) : toSentenceCase u n (joinWith [' '] (w :: ws)) =
      joinWith [' '] (processWord u n w true :: ws.map fun w => processWord u n w false) := by
  have hno : ∀ c ∈ ['`', '"', '‘', '“', ':', ';', '—', '–', '�'], c ∉ joinWith [' '] (w :: ws) := by
    intro c hc hm
    rcases mem_joinWords hm with rfl | ⟨x, hx, hcx⟩
    · exact absurd hc (by decide)
    · exact (((h x hx).2.1 c hcx).2) hc
  have hne : joinWith [' '] (w :: ws) ≠ [] := by
    have := (h w (by simp)).1
    cases ws with
    | nil => simpa [joinWith] using this
    | cons _ _ => rw [joinWith_cons']; simp
  rw [toSentenceCase, tokenizeCode_plain _ _ _ (Nat.le_refl _) (hno _ (by simp)), List.nil_append, tokenizeText,
    normQuotes_words _ _ h, tokenizeQuotes_plain _ _ _ (Nat.le_refl _) (hno _ (by simp)) (hno _ (by simp)), List.nil_append, flushTok, if_neg hne,
    sentenceToks, processText, multiwordNouns_nil hn]
  simp only [replaceNouns, restorePlaceholders, List.foldl_nil, sentenceToks, List.append_nil]
  apply processChars_words
  intro x hx
  refine ⟨(h x hx).1, fun c hc => ⟨((h x hx).2.1 c hc).1, ?_⟩⟩
  have := ((h x hx).2.1 c hc).2
  simp at this
  simp [isHeadingDelimiter, this]

theorem recased_eq (first : Bool) {w : List Char} (h : w ≠ []) :
    (if first then capitalizeFirst u w else u.strLower w) = recased u first w := by
  cases w with
  | nil => exact absurd rfl h
  | cons c w => cases first <;> rfl

theorem pronounI_some {w : List Char} (h : Pronoun w) : pronounI w = some ('I' :: (w.drop 1).map Char.toLower) ∨
    ∃ q rest, (q = '\'' ∨ q = '’') ∧ w.drop 1 = q :: rest ∧ pronounI w = some ('I' :: q :: rest.map Char.toLower) := by
  obtain ⟨c, rest, rfl, hc, hr⟩ := h
  cases rest with
  | nil => left; simp [pronounI, hc]
  | cons q rest =>
    right
    have hq : q = '\'' ∨ q = '’' := by simpa using hr
    exact ⟨q, rest, hq, rfl, by simp [pronounI, hc, hq]⟩

theorem findProperNoun_letterless {n : Nouns} {w : List Char} (h : ∀ c ∈ w, u.alphabetic c = false) :
    findProperNoun u n w = none := by
  unfold findProperNoun
  simp only []
  rw [if_pos]
  right
  rw [List.any_eq_false]
  intro c hc
  have h1 : c ∈ (possessive (List.dropWhile (fun c => !(u.alphanumeric c || decide (c = '@'))) w)).1 := by
    rw [List.mem_reverse] at hc
    simpa using (List.dropWhile_sublist _).mem hc
  have h2 : ∀ {s : List Char}, c ∈ (possessive s).1 → c ∈ s := by
    intro s hs
    unfold possessive at hs
    split at hs
    · rename_i e; rw [stripSuffix?_iff.1 e]; exact List.mem_append_left _ hs
    · split at hs
      · rename_i e; rw [stripSuffix?_iff.1 e]; exact List.mem_append_left _ hs
      · exact hs
  simp [h c ((List.dropWhile_sublist _).mem (h2 h1))]

/-- What `findProperNoun` gives for a dressed word. -/
theorem findProperNoun_cases {n : Nouns} {w lead core trail : List Char} (hd : Dressed u w lead core trail) :
    ((∀ c ∈ n.common, ¬ SameNoun u c core) → (∃ p ∈ n.proper, SameNoun u p core) →
      ∃ p ∈ n.proper, SameNoun u p core ∧ findProperNoun u n w = some (lead ++ p ++ trail)) ∧
    ((∀ c ∈ n.common, ¬ SameNoun u c core) → (∀ p ∈ n.proper, ¬ SameNoun u p core) →
      (∃ p ∈ n.builtin, p.2 = u.strLower core) →
      ∃ p ∈ n.builtin, p.2 = u.strLower core ∧ findProperNoun u n w = some (lead ++ p.1 ++ trail)) ∧
    (((∃ c ∈ n.common, SameNoun u c core) ∨
      (∀ p ∈ n.proper, ¬ SameNoun u p core) ∧ ∀ p ∈ n.builtin, p.2 ≠ u.strLower core) → findProperNoun u n w = none) := by
  rw [findProperNoun_dressed hd]
  refine ⟨fun hc hx => ?_, fun hc hx hb => ?_, fun hx => ?_⟩
  · rw [if_neg (by simpa [SameNoun] using hc)]
    cases hf : n.proper.find? (fun p => decide (u.strLower p = u.strLower core)) with
    | none =>
      obtain ⟨p, h1, h2⟩ := hx
      rw [List.find?_eq_none] at hf
      exact absurd h2 (by simpa [SameNoun] using hf p h1)
    | some p => exact ⟨p, List.mem_of_find?_eq_some hf, by simpa [SameNoun] using List.find?_some hf, rfl⟩
  · rw [if_neg (by simpa [SameNoun] using hc),
      List.find?_eq_none.2 (by intro p hm; simpa [SameNoun] using hx p hm)]
    cases hf : n.builtin.find? (fun p => decide (p.2 = u.strLower core)) with
    | none =>
      obtain ⟨p, h1, h2⟩ := hb
      rw [List.find?_eq_none] at hf
      exact absurd h2 (by simpa using hf p h1)
    | some p => exact ⟨p, List.mem_of_find?_eq_some hf, by simpa using List.find?_some hf, rfl⟩
  · rcases hx with hx | ⟨h1, h2⟩
    · rw [if_pos (by simpa [SameNoun] using hx)]
    · rw [List.find?_eq_none.2 (by intro p hm; simpa [SameNoun] using h1 p hm),
        List.find?_eq_none.2 (by intro p hm; simpa using h2 p hm)]
      split <;> rfl

/-- The rules for a word. -/
theorem processWordSimple_ok (n : Nouns) (first : Bool) {w : List Char} (h : w ≠ []) (hm : '�' ∉ w) :
    WordOk u n first w (processWordSimple u n w first) := by
  haveI : Decidable (Kept u w) := Classical.propDecidable _
  have e : processWordSimple u n w first = if Kept u w then w else match pronounI w with
    | some w => w
    | none => match findProperNoun u n w with
      | some w => w
      | none => recased u first w := by
    rw [processWordSimple, if_neg h, if_neg (by simpa using hm), recased_eq first h]
    by_cases h1 : AllCaps u w
    · rw [if_pos ((allCaps_iff u w).2 h1), if_pos (.inl h1)]
    · rw [if_neg (fun hh => h1 ((allCaps_iff u w).1 hh))]
      by_cases h2 : Acronym u w
      · rw [if_pos ((isAcronym_iff u w).2 h2), if_pos (.inr h2)]
      · rw [if_neg (fun hh => h2 ((isAcronym_iff u w).1 hh)), if_neg (fun hk => hk.elim h1 h2)]
        rfl
  rw [e]
  constructor
  · intro hk; rw [if_pos hk]
  · intro hk hp
    rw [if_neg hk]
    rcases pronounI_some hp with h | ⟨q, rest, hq, h1, h2⟩
    · rw [h]
    · rw [h2, h1]
      rcases hq with rfl | rfl <;> rfl
  · intro hk hp lead core trail hd hc hx
    obtain ⟨p, h1, h2, h3⟩ := (findProperNoun_cases hd).1 hc hx
    rw [if_neg hk, pronounI_none hp, h3]
    exact ⟨p, h1, h2, rfl⟩
  · intro hk hp lead core trail hd hc hx hb
    obtain ⟨p, h1, h2, h3⟩ := (findProperNoun_cases hd).2.1 hc hx hb
    rw [if_neg hk, pronounI_none hp, h3]
    exact ⟨p, h1, h2, rfl⟩
  · intro hk hp lead core trail hd hx
    rw [if_neg hk, pronounI_none hp, (findProperNoun_cases hd).2.2 hx]
  · intro hl hk hp
    rw [if_neg hk, pronounI_none hp, findProperNoun_letterless hl]

theorem processWord_ok (n : Nouns) (first : Bool) {w : List Char} (h : PlainWord u w) (h1 : '-' ∉ w) (h2 : '/' ∉ w) :
    WordOk u n first w (processWord u n w first) := by
  rw [processWord]
  simp only [show w.contains '-' = false by simpa using h1, show w.contains '/' = false by simpa using h2,
    Bool.or_self, Bool.false_eq_true, if_false]
  exact processWordSimple_ok n first h.1 (fun hm => (h.2.1 _ hm).2 (by simp))

theorem processParts_ok (n : Nouns) (first : Bool) (sep : Char) {w : List Char} (hm : '�' ∉ w) (hs : sep ≠ '�') :
    ∃ outs, processParts u n sep w first = joinWith [sep] outs ∧ outs.length = (splitOn sep w).length ∧
      ∀ i part out', (splitOn sep w)[i]? = some part → outs[i]? = some out' →
        (part = [] → out' = []) ∧ (part ≠ [] → WordOk u n (first && i == 0) part out') := by
  refine ⟨_, rfl, by simp, ?_⟩
  intro i part out' h1 h2
  rw [List.getElem?_mapIdx, h1] at h2
  simp only [Option.map_some, Option.some.injEq] at h2
  have hp : '�' ∉ part := by
    intro hx
    have := List.mem_of_getElem? h1
    exact hm (mem_splitOn_subset this hx)
  subst h2
  refine ⟨fun e => by rw [e]; rfl, fun hne => ?_⟩
  have : (first && decide (i = 0)) = (first && i == 0) := by
    cases first <;> simp [Bool.beq_eq_decide_eq]
  rw [this]
  exact processWordSimple_ok n _ hne hp

theorem processWord_compound (n : Nouns) (first : Bool) {w : List Char} (sep : Char)
    (h1 : sep = '-' ∨ sep = '/' ∧ '-' ∉ w) (h2 : sep ∈ w) (hm : '�' ∉ w) :
    CompoundOk u n first sep w (processWord u n w first) := by
  have e : processWord u n w first = match findProperNoun u n w with
    | some w => w
    | none => processParts u n sep w first := by
    rw [processWord]
    rcases h1 with rfl | ⟨rfl, h3⟩
    · simp only [show w.contains '-' = true by simpa using h2, Bool.true_or, if_true]
      rfl
    · simp only [show w.contains '-' = false by simpa using h3, show w.contains '/' = true by simpa using h2, Bool.false_or, if_true,
        Bool.false_eq_true, if_false]
      rfl
  have hs : sep ≠ '�' := by rcases h1 with rfl | ⟨rfl, _⟩ <;> decide
  rw [e]
  constructor
  · intro lead core trail hd hc hx
    obtain ⟨p, h1, h2, h3⟩ := (findProperNoun_cases hd).1 hc hx
    rw [h3]
    exact ⟨p, h1, h2, rfl⟩
  · intro lead core trail hd hc hx hb
    obtain ⟨p, h1, h2, h3⟩ := (findProperNoun_cases hd).2.1 hc hx hb
    rw [h3]
    exact ⟨p, h1, h2, rfl⟩
  · intro lead core trail hd hx
    rw [(findProperNoun_cases hd).2.2 hx]
    exact processParts_ok n first sep hm hs

theorem split_unique {q : Char} {y b : List Char} (hb : q ∉ b) : ∀ {a x : List Char}, q ∉ a → a ++ q :: b = x ++ q :: y → x = a ∧ y = b
  | [], [], _, h => by simpa using h.symm
  | [], c :: x, _, h => by
    simp only [List.nil_append, List.cons_append, List.cons.injEq] at h
    exact absurd (show q ∈ b by rw [h.2]; simp) hb
  | c :: a, [], ha, h => by
    simp only [List.nil_append, List.cons_append, List.cons.injEq] at h
    exact absurd (by simp [h.1]) ha
  | c :: a, d :: x, ha, h => by
    simp only [List.cons_append, List.cons.injEq] at h
    have := split_unique hb (fun hm => ha (by simp [hm])) h.2
    exact ⟨by rw [h.1, this.1], this.2⟩

end

end Hongdown
