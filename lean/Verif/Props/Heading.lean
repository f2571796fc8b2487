import Verif.Lemmas.Sentence
import Verif.Lemmas.Curl
import Verif.Lemmas.HeadingStable

/-!
# Sentence case: C40, C41, C42, C76
-/

namespace Hongdown.Props
open Model Spec

/-! ### Example tables -/

/-- Case folding for ASCII, with straight quotation marks. -/
def foldAscii (c : Char) : List Char :=
  if c = '‘' ∨ c = '’' then ['\''] else if c = '“' ∨ c = '”' then ['"'] else [c.toLower]

theorem foldAscii_lower (c : Char) : foldAscii c.toLower = foldAscii c := by
  unfold foldAscii
  simp only [toLower_eq (d := '‘') (by decide), toLower_eq (d := '’') (by decide), toLower_eq (d := '“') (by decide),
    toLower_eq (d := '”') (by decide), toLower_lower]

theorem foldAscii_upper (c : Char) : foldAscii c.toUpper = foldAscii c := by
  rw [← foldAscii_lower c.toUpper, toUpper_lower, foldAscii_lower]

theorem foldAscii_mem {c d : Char} (hd : d.toNat < 65 ∨ 122 < d.toNat) (h : d ∉ ['‘', '’', '“', '”', '\'', '"']) :
    d ∈ foldAscii c ↔ c = d := by
  simp only [List.mem_cons, List.not_mem_nil, or_false, not_or] at h
  unfold foldAscii
  split
  · rename_i hc
    simp only [List.mem_singleton]
    rcases hc with rfl | rfl <;> exact ⟨fun e => absurd e (by simp [h]), fun e => absurd e.symm (by simp [h])⟩
  · split
    · rename_i hc
      simp only [List.mem_singleton]
      rcases hc with rfl | rfl <;> exact ⟨fun e => absurd e (by simp [h]), fun e => absurd e.symm (by simp [h])⟩
    · rw [List.mem_singleton, eq_comm, toLower_eq hd]

theorem foldAscii_ok : CaseFold asciiUni foldAscii where
  lower s := by
    show foldCase foldAscii (s.map Char.toLower) = foldCase foldAscii s
    induction s with
    | nil => rfl
    | cons c s ih => rw [List.map_cons, foldCase_cons, foldCase_cons, ih, foldAscii_lower]
  upper c _ := by
    show foldCase foldAscii [c.toUpper] = foldAscii c
    rw [foldCase_cons, foldAscii_upper, foldCase_nil, List.append_nil]
  ascii := foldAscii_lower
  mark c := foldAscii_mem (by decide) (by decide)
  space c := foldAscii_mem (by decide) (by decide)
  digit c h := isDigit_classes h
  markClass := by decide
  single := by decide
  double := by decide

/-- Case folding for ASCII. -/
def lowerAscii (c : Char) : List Char := [c.toLower]

theorem lowerAscii_ok : LetterFold asciiUni lowerAscii where
  lower s := by
    show foldCase lowerAscii (s.map Char.toLower) = foldCase lowerAscii s
    induction s with
    | nil => rfl
    | cons c s ih => rw [List.map_cons, foldCase_cons, foldCase_cons, ih, lowerAscii, lowerAscii, toLower_lower]
  upper c _ := by
    show foldCase lowerAscii [c.toUpper] = lowerAscii c
    rw [foldCase_cons, foldCase_nil, List.append_nil, lowerAscii, lowerAscii, toUpper_lower]
  ascii c := by rw [lowerAscii, lowerAscii, toLower_lower]
  mark c := by rw [lowerAscii, List.mem_singleton, eq_comm, toLower_eq (by decide)]
  space c := by rw [lowerAscii, List.mem_singleton, eq_comm, toLower_eq (by decide)]
  digit c h := isDigit_classes h
  markClass := by decide

/-- Nouns for the examples. -/
def exNouns : Nouns where
  builtin := [("GitHub".toList, "github".toList), ("JavaScript".toList, "javascript".toList)]
  proper := ["New York".toList, "iPhone".toList, "JSON-RPC".toList]
  common := ["JavaScript".toList]

theorem exNouns_ok : NounsOk foldAscii exNouns := ⟨by decide, by decide, by decide⟩

/-- Nouns of one word for the examples. -/
def exOneWord : Nouns where
  builtin := [("GitHub".toList, "github".toList), ("JavaScript".toList, "javascript".toList)]
  proper := ["iPhone".toList, "JSON-RPC".toList]
  common := ["JavaScript".toList]

instance (u : Uni) (c : Char) : Decidable (Capital u c) := inferInstanceAs (Decidable (_ ∧ _))

instance (u : Uni) (w : List Char) : Decidable (AllCaps u w) := decidable_of_iff _ (allCaps_iff u w)

instance (u : Uni) (w : List Char) : Decidable (Acronym u w) := decidable_of_iff _ (isAcronym_iff u w)

instance (u : Uni) (w : List Char) : Decidable (Kept u w) := inferInstanceAs (Decidable (_ ∨ _))

/-! ### C40 -/

/-- **C40 (partial).** Full statement: for every text, and with code spans of any number of
backquotes; the two excluded characters are the marker that the code uses for nouns of several words and
a letter that changes when it is made a capital and a small letter again. Cut the heading at its backquotes. The second, fourth and so on of the pieces, the
contents of the code spans, are copied. In the others only letter case and the style of
quotation marks changes, whatever the nouns are. -/
theorem c40_pieces_partial {u : Uni} {f : Char → List Char} (hf : CaseFold u f) {n : Nouns} (hn : NounsOk f n)
    (text : List Char) (hm : '�' ∉ text) (hd : 'ı' ∉ text) :
    ∃ outs, toSentenceCase u n text = joinWith ['`'] outs ∧
      Alternate (fun a b => foldCase f a = foldCase f b) false (splitOn '`' text) outs := by
  obtain ⟨outs, h1, _, h2⟩ := foldCase_tokenizeCode hf.toLetterFold hn (.inl hf.single.2) text.length text [] true (Nat.le_refl _) ⟨hm, hd⟩
    (by simp)
  exact ⟨outs, h1, alternate_mono (fun a b h => by rw [← h, foldCase_normQuotes hf]) _ _ _ h2⟩

/-- **C40 (partial).** Full statement: for every text, and with nouns of several words, where the
output has the apostrophes of the noun. The quotation marks of each piece of text are curled by
the rules in `Mark`, and nothing else but letter case changes. -/
theorem c40_quotes_partial {u : Uni} {f : Char → List Char} (hf : LetterFold u f) {n : Nouns} (hn : NounsOk f n)
    (ho : OneWordNouns n) (text : List Char) (hm : '�' ∉ text) (hd : 'ı' ∉ text) :
    ∃ outs, toSentenceCase u n text = joinWith ['`'] outs ∧
      Alternate (fun a b => ∃ t, Curled u a t ∧ foldCase f t = foldCase f b) false (splitOn '`' text) outs := by
  obtain ⟨outs, h1, _, h2⟩ := foldCase_tokenizeCode hf hn (.inr ho) text.length text [] true (Nat.le_refl _) ⟨hm, hd⟩ (by simp)
  exact ⟨outs, h1, alternate_mono (fun a b h => ⟨_, normQuotes_curled u a, h⟩) _ _ _ h2⟩

/-- **C40 (partial).** Full statement: for every text. Sentence case keeps everything but letter case and the style of quotation marks. -/
theorem c40_fold_partial {u : Uni} {f : Char → List Char} (hf : CaseFold u f) {n : Nouns} (hn : NounsOk f n)
    (text : List Char) (hm : '�' ∉ text) (hd : 'ı' ∉ text) :
    foldCase f (toSentenceCase u n text) = foldCase f text := by
  obtain ⟨outs, h1, h2⟩ := c40_pieces_partial hf hn text hm hd
  have := alternate_fold _ _ _ h2
  rw [join_splitOn] at this
  rw [h1, ← this]

example : toSentenceCase asciiUni exNouns "The `Foo Bar` Of \"NEW york's\" Github Pages, And 'Iphone' Apps".toList =
    "The `Foo Bar` of “New York's” GitHub pages, and ‘iPhone’ apps".toList := by decide +kernel

example : NounsOk lowerAscii exOneWord ∧ OneWordNouns exOneWord ∧
    toSentenceCase asciiUni exOneWord "Rock 'N' Roll: Don't Say \"Github\" In The '80s".toList =
      "Rock ‘N’ roll: Don't say “GitHub” in the '80s".toList :=
  ⟨⟨by decide, by decide, by decide⟩, ⟨by decide, by decide⟩, by decide +kernel⟩

example : foldCase foldAscii (toSentenceCase asciiUni exNouns "The `Foo Bar` Of \"NEW york's\" Github".toList) =
    foldCase foldAscii "The `Foo Bar` Of \"NEW york's\" Github".toList :=
  c40_fold_partial foldAscii_ok exNouns_ok _ (by decide) (by decide)

/-- C40 fails for a heading that has the text of a placeholder: in `�0� and New York` it is
replaced by the noun. -/
theorem c40_placeholder_false : ¬ ∀ (n : Nouns) (text : List Char), NounsOk foldAscii n →
    foldCase foldAscii (toSentenceCase asciiUni n text) = foldCase foldAscii text := by
  intro h
  have := h exNouns "�0� and New York".toList exNouns_ok
  revert this
  decide +kernel

/-- C40 fails for a code span that is fenced by two backquotes: the code between them is taken
for text. -/
theorem c40_double_false : ¬ ∀ (n : Nouns) (code : List Char), NounsOk foldAscii n → '`' ∉ code →
    toSentenceCase asciiUni n ("``".toList ++ code ++ "``".toList) = "``".toList ++ code ++ "``".toList := by
  intro h
  have := h exNouns "new Map()".toList exNouns_ok (by decide)
  revert this
  decide +kernel

/-! ### C41 -/

/-- **C41 (partial).** Full statement: for every text and all nouns,
`toSentenceCase u n (toSentenceCase u n text) = toSentenceCase u n text`. A heading of ASCII words with single spaces between them, without apostrophes, comes
out of sentence case the same the second time. -/
theorem c41_words_partial {u : Uni} (hu : AsciiOk u) {n : Nouns} (hn : AsciiNouns n) (ho : OneWordNouns n)
    (ws : List (List Char)) (hw : ∀ w ∈ ws, AsciiWord u w) :
    toSentenceCase u n (toSentenceCase u n (joinWith [' '] ws)) = toSentenceCase u n (joinWith [' '] ws) := by
  cases ws with
  | nil => rfl
  | cons w ws => exact sentence_twice hu hn ho w ws hw

theorem asciiUni_ok : AsciiOk asciiUni := ⟨fun _ _ => rfl, fun _ _ => rfl, fun _ _ => rfl, fun _ _ => rfl⟩

example : AsciiNouns exOneWord ∧ OneWordNouns exOneWord ∧
    ∀ w ∈ ["using".toList, "(iphone)".toList, "Read-Only".toList, "JSON/xml!".toList], AsciiWord asciiUni w := by
  refine ⟨⟨by decide, by decide⟩, ⟨by decide, by decide⟩, ?_⟩
  intro w hw
  have hno : ∀ w ∈ ["using".toList, "(iphone)".toList, "Read-Only".toList, "JSON/xml!".toList], '\'' ∉ w := by decide
  refine ⟨⟨?_, ?_, ?_⟩, ?_⟩
  · revert w; decide
  · revert w; decide +kernel
  · rintro x y rfl
    exact absurd (show '\'' ∈ x ++ '\'' :: y by simp) (hno _ hw)
  · revert w; decide

example : toSentenceCase asciiUni exOneWord "using (iphone) Read-Only JSON/xml!".toList = "Using (iPhone) read-only JSON/xml!".toList := by
  decide +kernel

/-- C41 fails: the possessive ending is only seen in lower case, so a proper noun is found the
second time. `Use Github'S` becomes `Use github's`, and that becomes `Use GitHub's`. -/
theorem c41_possessive_false : ¬ ∀ (n : Nouns) (text : List Char),
    toSentenceCase asciiUni n (toSentenceCase asciiUni n text) = toSentenceCase asciiUni n text := by
  intro h
  have := h exOneWord "Use Github'S".toList
  revert this
  decide +kernel

/-! ### C42 -/

/-- **C42 (partial).** Full statement: for every heading, also with quotations, code, colons and
dashes, and nouns of several words. In a heading of words with single spaces between them each word follows the rules for
words. -/
theorem c42_words_partial {u : Uni} {n : Nouns} (hn : OneWordNouns n) (ws : List (List Char)) (hw : ∀ w ∈ ws, PlainWord u w) :
    ∃ outs, toSentenceCase u n (joinWith [' '] ws) = joinWith [' '] outs ∧ outs.length = ws.length ∧
      ∀ i w out, ws[i]? = some w → outs[i]? = some out →
        ('-' ∉ w → '/' ∉ w → WordOk u n (i == 0) w out) ∧
        ('-' ∈ w → CompoundOk u n (i == 0) '-' w out) ∧
        ('-' ∉ w → '/' ∈ w → CompoundOk u n (i == 0) '/' w out) := by
  cases ws with
  | nil => exact ⟨[], by rfl, rfl, by simp⟩
  | cons w ws =>
    refine ⟨_, sentence_words hn w ws hw, by simp, ?_⟩
    intro i x out h1 h2
    have key : PlainWord u x ∧ out = processWord u n x (i == 0) := by
      refine ⟨hw x (List.mem_of_getElem? h1), ?_⟩
      cases i with
      | zero =>
        simp only [List.getElem?_cons_zero, Option.some.injEq] at h1 h2
        subst h1; exact h2.symm
      | succ i =>
        simp only [List.getElem?_cons_succ, List.getElem?_map] at h1 h2
        rw [h1] at h2
        simpa using h2.symm
    obtain ⟨hp, rfl⟩ := key
    have hm : '�' ∉ x := fun h => (hp.2.1 _ h).2 (by simp)
    exact ⟨fun h3 h4 => processWord_ok n _ hp h3 h4, fun h3 => processWord_compound n _ '-' (.inl rfl) h3 hm,
      fun h3 h4 => processWord_compound n _ '/' (.inr ⟨rfl, h3⟩) h4 hm⟩

example : toSentenceCase asciiUni exOneWord "what I'Ll Do: (JSON) \"APIs\" And iPHONE's Javascript Json-Rpc Read-Only".toList =
    "What I'll do: (JSON) “APIs” and iPhone's javascript JSON-RPC read-only".toList := by decide +kernel

example : OneWordNouns exOneWord ∧ ∀ w ∈ ["github's".toList, "Foo".toList], PlainWord asciiUni w := by
  refine ⟨⟨by decide, by decide⟩, ?_⟩
  intro w hw
  simp only [List.mem_cons, List.not_mem_nil, or_false] at hw
  rcases hw with rfl | rfl
  · refine ⟨by decide, by decide +kernel, ?_⟩
    intro x y h
    have e : x = "github".toList ∧ y = "s".toList := by
      have hx : '\'' ∉ "github".toList := by decide
      have hy : '\'' ∉ "s".toList := by decide
      have h' : "github".toList ++ '\'' :: "s".toList = x ++ '\'' :: y := by rw [← h]; decide
      exact split_unique hy hx h'
    rw [e.1, e.2]
    exact ⟨⟨'b', by decide, by decide⟩, 's', by decide, by decide⟩
  · refine ⟨by decide, by decide +kernel, ?_⟩
    intro x y h
    have : '\'' ∈ "Foo".toList := by rw [h]; simp
    exact absurd this (by decide)

/-- C42 fails for capitals inside a word: the README says that two or more consecutive capitals
are an acronym, but only the start of a word is looked at. The heading `Using (APIs)` becomes
`Using (apis)`. -/
theorem c42_inner_false : ¬ ∀ (n : Nouns) (x y : List Char) (a b : Char), Capital asciiUni a → Capital asciiUni b →
    toSentenceCase asciiUni n ("Using ".toList ++ x ++ a :: b :: y) = "Using ".toList ++ x ++ a :: b :: y := by
  intro h
  have := h exOneWord "(".toList "Is)".toList 'A' 'P' (by decide) (by decide)
  revert this
  decide +kernel

/-- C42 fails for a proper noun in capitals: it is taken for an acronym. -/
theorem c42_caps_false : ¬ ∀ (n : Nouns) (noun word : List Char), noun ∈ n.proper → n.common = [] →
    SameNoun asciiUni noun word → toSentenceCase asciiUni n ("Use ".toList ++ word) = "Use ".toList ++ noun := by
  intro h
  have := h ⟨[], ["iPhone".toList], []⟩ "iPhone".toList "IPHONE".toList (by decide) rfl (by unfold SameNoun; decide)
  revert this
  decide +kernel

/-- C42 fails for a contraction of the pronoun that has a period after a letter: `i'D.` is taken
for an acronym. -/
theorem c42_pronoun_false : ¬ ∀ (n : Nouns) (w : List Char), Pronoun w →
    "What I".toList <+: toSentenceCase asciiUni n ("What ".toList ++ w) := by
  intro h
  have := h exOneWord "i'D.".toList ⟨'i', "'D.".toList, rfl, .inl rfl, by decide⟩
  revert this
  decide +kernel

/-- C42 fails for a proper noun in the possessive with punctuation after it. -/
theorem c42_possessive_false : ¬ ∀ (n : Nouns) (noun word : List Char), noun ∈ n.proper → n.common = [] →
    SameNoun asciiUni noun word →
    toSentenceCase asciiUni n ("Use ".toList ++ word ++ "'s,".toList) = "Use ".toList ++ noun ++ "'s,".toList := by
  intro h
  have := h ⟨[], ["iPhone".toList], []⟩ "iPhone".toList "Iphone".toList (by decide) rfl (by unfold SameNoun; decide)
  revert this
  decide +kernel

/-! ### C76 -/

/-- **C76 (partial).** Full statement: for every heading. The first letter of a heading that starts with a word that no rule singles out is
made a capital. -/
theorem c76_first_partial {u : Uni} {n : Nouns} (hn : OneWordNouns n) (c : Char) (w : List Char) (ws : List (List Char))
    (hw : ∀ x ∈ (c :: w) :: ws, PlainWord u x) (h1 : '-' ∉ c :: w) (h2 : '/' ∉ c :: w)
    (hk : ¬ Kept u (c :: w)) (hp : ¬ Pronoun (c :: w)) (core trail : List Char)
    (hd : Dressed u (c :: w) [] core trail) (hx : ∀ p ∈ n.proper, ¬ SameNoun u p core)
    (hb : ∀ p ∈ n.builtin, p.2 ≠ u.strLower core) :
    u.toUpper c ++ u.strLower w <+: toSentenceCase u n (joinWith [' '] ((c :: w) :: ws)) := by
  rw [sentence_words hn (c :: w) ws hw]
  have := (processWord_ok n true (hw _ (by simp)) h1 h2).other hk hp [] core trail hd (.inr ⟨hx, hb⟩)
  rw [this]
  cases ws with
  | nil => simp [joinWith, recased]
  | cons x xs => rw [List.map_cons, joinWith_cons']; simp [recased]

/-- **C76 (partial).** Full statement: for every heading. Only the first word is made to start with a capital: any other word that no rule
singles out is lower case in the output. -/
theorem c76_only_partial {u : Uni} {n : Nouns} (hn : OneWordNouns n) (ws : List (List Char)) (hw : ∀ w ∈ ws, PlainWord u w) :
    ∃ outs, toSentenceCase u n (joinWith [' '] ws) = joinWith [' '] outs ∧ outs.length = ws.length ∧
      ∀ i w out, ws[i + 1]? = some w → outs[i + 1]? = some out → '-' ∉ w → '/' ∉ w → ¬ Kept u w → ¬ Pronoun w →
        ∀ lead core trail, Dressed u w lead core trail → (∀ p ∈ n.proper, ¬ SameNoun u p core) →
          (∀ p ∈ n.builtin, p.2 ≠ u.strLower core) → out = u.strLower w := by
  obtain ⟨outs, e, hl, h⟩ := c42_words_partial hn ws hw
  refine ⟨outs, e, hl, ?_⟩
  intro i w out h1 h2 h3 h4 hk hp lead core trail hd hx hb
  have := ((h (i + 1) w out h1 h2).1 h3 h4).other hk hp lead core trail hd (.inr ⟨hx, hb⟩)
  simpa [recased] using this

example : toSentenceCase asciiUni exOneWord "development Commands Here".toList = "Development commands here".toList := by
  decide +kernel

/-- C76 fails for a first word with emphasis or a bracket: the delimiter counts as the first
letter, and the capital the author wrote is lost. -/
theorem c76_emphasis_false : ¬ ∀ (n : Nouns) (text : List Char) (c d : Char),
    text.find? asciiUni.alphabetic = some c → Capital asciiUni c →
    (toSentenceCase asciiUni n text).find? asciiUni.alphabetic = some d → Capital asciiUni d := by
  intro h
  exact absurd (h exOneWord "**Hello** World".toList 'H' 'h' (by decide +kernel) (by decide) (by decide +kernel)) (by decide)

/-- C76 fails for a heading that starts with a quotation: after `"hello"` the word `World` is
taken for the first and keeps its capital. -/
theorem c76_quote_false : ¬ ∀ (n : Nouns) (x w : List Char), n.builtin = [] → n.proper = [] → x ≠ [] → '"' ∉ x →
    ¬ Kept asciiUni w → ¬ Pronoun w →
    asciiUni.strLower w <:+ toSentenceCase asciiUni n (['"'] ++ x ++ ['"', ' '] ++ w) := by
  intro h
  have := h ⟨[], [], []⟩ "hello".toList "World".toList rfl rfl (by decide) (by decide) (by decide) (by
    rintro ⟨c, rest, e, hc, _⟩
    have e' : 'W' = c := by
      have := congrArg List.head? e
      simpa using this
    subst e'
    revert hc; decide)
  revert this
  decide +kernel

end Hongdown.Props
