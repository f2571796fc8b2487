import Verif.Lemmas.Placeholder

/-!
# Sentence case changes only the case
-/

namespace Hongdown
open Model Spec

theorem isWs_cut {c : Char} (h : isWs c = true) : Cut c := by
  constructor
  · rintro rfl; revert h; decide
  · cases hd : isAsciiDigit c with
    | false => rfl
    | true =>
      simp only [isAsciiDigit, Bool.and_eq_true, decide_eq_true_eq] at hd
      simp [isWs] at h
      omega

theorem delimiter_cut {c : Char} (h : isHeadingDelimiter c = true) : Cut c := by
  simp only [isHeadingDelimiter, Bool.or_eq_true, decide_eq_true_eq] at h
  rcases h with ((rfl | rfl) | rfl) | rfl <;> exact ⟨by decide, by decide⟩

section
variable {u : Uni} {f : Char → List Char} (hf : LetterFold u f) {n : Nouns} (hn : NounsOk f n)
  {reps : List (List Char × List Char)} (hr : RepsOk reps)
include hf hn hr

/-- A word, or a part of it. -/
theorem restore_wordSimple (w : List Char) (first : Bool) (hd : 'ı' ∉ w) :
    foldCase f (restorePlaceholders (processWordSimple u n w first) reps) = foldCase f (restorePlaceholders w reps) := by
  by_cases hm : '�' ∈ w
  · have : processWordSimple u n w first = w := by
      unfold processWordSimple
      rw [if_neg (List.ne_nil_of_mem hm), if_pos (by simpa using hm)]
    rw [this]
  · have e := foldCase_wordSimple hf hn w first hd
    have hm' : '�' ∉ processWordSimple u n w first := by
      rw [← foldCase_mark hf, e, foldCase_mark hf]; exact hm
    rw [restore_id hr hm, restore_id hr hm', e]

omit hf hn in
theorem restore_join {sep : Char} (hs : Cut sep) : ∀ (as bs : List (List Char)), as.length = bs.length →
    (∀ (i : Nat) (a b : List Char), as[i]? = some a → bs[i]? = some b →
      foldCase f (restorePlaceholders a reps) = foldCase f (restorePlaceholders b reps)) →
    foldCase f (restorePlaceholders (joinWith [sep] as) reps) = foldCase f (restorePlaceholders (joinWith [sep] bs) reps)
  | [], [], _, _ => rfl
  | [], _ :: _, h, _ => by simp at h
  | _ :: _, [], h, _ => by simp at h
  | [a], [b], _, h => by simpa [joinWith] using h 0 a b rfl rfl
  | [_], _ :: _ :: _, h, _ => by simp at h
  | _ :: _ :: _, [_], h, _ => by simp at h
  | a :: a' :: as, b :: b' :: bs, hl, h => by
    rw [joinWith_cons [sep] a (l := a' :: as) (by simp), joinWith_cons [sep] b (l := b' :: bs) (by simp), List.append_assoc, List.append_assoc,
      List.singleton_append, List.singleton_append, restore_cut hr hs, restore_cut hr hs, foldCase_append, foldCase_append,
      foldCase_cons, foldCase_cons, h 0 a b rfl rfl,
      restore_join hs (a' :: as) (b' :: bs) (by simpa using hl) (fun i x y hx hy => h (i + 1) x y hx hy)]

theorem restore_parts {sep : Char} (hs : Cut sep) (w : List Char) (first : Bool) (hd : 'ı' ∉ w) :
    foldCase f (restorePlaceholders (processParts u n sep w first) reps) = foldCase f (restorePlaceholders w reps) := by
  conv => rhs; rw [← join_splitOn sep w]
  refine restore_join hr hs _ _ (by simp) ?_
  intro i a b ha hb
  rw [List.getElem?_mapIdx, hb, Option.map_some, Option.some.injEq] at ha
  rw [← ha]
  refine restore_wordSimple hf hn hr b _ fun h => hd ?_
  exact mem_splitOn_subset (List.mem_of_getElem? hb) h

theorem restore_word {w : List Char} (hw : Marked w) (first : Bool) (hd : 'ı' ∉ w) :
    foldCase f (restorePlaceholders (processWord u n w first) reps) = foldCase f (restorePlaceholders w reps) := by
  unfold processWord
  split
  · rename_i r h
    split at h
    · by_cases hm : '�' ∈ w
      · rw [noNoun_marked hf hn hw hm] at h; cases h
      · have e := foldCase_noun hf hn h
        have hm' : '�' ∉ r := by rw [← foldCase_mark hf, e, foldCase_mark hf]; exact hm
        rw [restore_id hr hm, restore_id hr hm', e]
    · cases h
  · split
    · exact restore_parts hf hn hr ⟨by decide, by decide⟩ w first hd
    split
    · exact restore_parts hf hn hr ⟨by decide, by decide⟩ w first hd
    · exact restore_wordSimple hf hn hr w first hd

theorem restore_chars : ∀ (s : List Char) (first after : Bool) (w : List Char), Marked (w ++ s) → 'ı' ∉ w ++ s →
    foldCase f (restorePlaceholders (processChars u n first after w s).1 reps) = foldCase f (restorePlaceholders (w ++ s) reps)
  | [], first, after, w, hw, hd => by
    rw [List.append_nil] at hw hd ⊢
    rw [processChars]
    split
    · rename_i h; rw [h]
    · exact restore_word hf hn hr hw _ hd
  | c :: rest, first, after, w, hw, hd => by
    have hd1 : 'ı' ∉ w := fun h => hd (by simp [h])
    have hd2 : 'ı' ∉ rest := fun h => hd (by simp [h])
    have cutCase : Cut c → ∀ first' after' (x : List Char),
        foldCase f (restorePlaceholders x reps) = foldCase f (restorePlaceholders w reps) →
        foldCase f (restorePlaceholders (x ++ c :: (processChars u n first' after' [] rest).1) reps) =
          foldCase f (restorePlaceholders (w ++ c :: rest) reps) := by
      intro hc first' after' x hx
      obtain ⟨_, h2⟩ := Marked.cut hc hw w rfl
      rw [restore_cut hr hc, restore_cut hr hc, foldCase_append, foldCase_append, foldCase_cons, foldCase_cons, hx,
        restore_chars rest first' after' [] h2 hd2, List.nil_append]
    have wordCase : Cut c → ∀ b, foldCase f (restorePlaceholders (processWord u n w b) reps) =
        foldCase f (restorePlaceholders w reps) := fun hc b =>
      restore_word hf hn hr (Marked.cut hc hw w rfl).1 b hd1
    rw [processChars]
    split
    · rename_i h
      have hc := isWs_cut h
      split
      · rename_i hw0
        have := cutCase hc first after [] (by rw [hw0])
        simpa using this
      · exact cutCase hc _ _ _ (wordCase hc _)
    split
    · rename_i h
      have hc := delimiter_cut h
      split
      · rename_i hw0
        have := cutCase hc first true [] (by rw [hw0])
        simpa using this
      · exact cutCase hc _ _ _ (wordCase hc _)
    · have := restore_chars rest first after (w ++ [c]) (by simpa using hw) (by simpa using hd)
      simpa using this

end

section
variable {u : Uni} {f : Char → List Char} (hf : LetterFold u f) {n : Nouns} (hn : NounsOk f n)
  (ho : f '’' = f '\'' ∨ OneWordNouns n)
include hf hn ho

theorem mem_insertByLen {x y : List Char × List Char} : ∀ {l : List (List Char × List Char)},
    y ∈ insertByLen x l → y = x ∨ y ∈ l
  | [], h => by simpa [insertByLen] using h
  | z :: l, h => by
    rw [insertByLen] at h
    split at h
    · simpa using h
    · rcases List.mem_cons.1 h with h | h
      · exact .inr (by simp [h])
      · rcases mem_insertByLen h with h | h
        · exact .inl h
        · exact .inr (by simp [h])

theorem multiword_ok : ∀ p ∈ multiwordNouns u n, foldCase f p.1 = foldCase f p.2 ∧ '�' ∉ p.1 ∧ ' ' ∈ p.1 ∧ f '’' = f '\'' := by
  have key : ∀ (l acc : List (List Char × List Char)) (p : List Char × List Char),
      p ∈ l.foldl (fun acc x => insertByLen x acc) acc → p ∈ l ∨ p ∈ acc := by
    intro l
    induction l with
    | nil => intro acc p h; exact .inr h
    | cons x l ih =>
      intro acc p h
      rcases ih _ p h with h | h
      · exact .inl (by simp [h])
      · rcases mem_insertByLen hf hn ho h with h | h
        · exact .inl (by simp [h])
        · exact .inr h
  intro p hp
  rw [multiwordNouns] at hp
  rcases key _ _ p hp with h | h
  · obtain ⟨q, hq, rfl⟩ := List.mem_map.1 h
    obtain ⟨hq, hc⟩ := List.mem_filter.1 hq
    have hsp : ' ' ∈ q := by
      simp only [Bool.and_eq_true] at hc
      simpa using hc.1
    refine ⟨(hf.lower q).symm, ?_, hsp, ?_⟩
    · rcases List.mem_append.1 hq with h | h
      · obtain ⟨b, hb, rfl⟩ := List.mem_map.1 h
        exact hn.builtin b hb
      · exact hn.proper q h
    · rcases ho with ho | ho
      · exact ho
      · rcases List.mem_append.1 hq with h | h
        · obtain ⟨b, hb, rfl⟩ := List.mem_map.1 h
          exact absurd hsp (ho.1 b hb)
        · exact absurd hsp (ho.2 q h)
  · simp at h

omit hf hn ho in
theorem replaceNoun_mem {canonical key : List Char} {c : Char} (hc : Cut c) : ∀ (fuel : Nat) (prev : Option Char) (i : Nat)
    (s : List Char), c ∈ (replaceNoun u canonical key fuel prev i s).1 → c ∈ s
  | 0, _, _, _, h => h
  | _ + 1, _, _, [], h => h
  | fuel + 1, prev, i, x :: rest, h => by
    rw [replaceNoun] at h
    split at h
    · exact h
    split at h
    · rcases List.mem_append.1 h with h | h
      · exact absurd h (cut_placeholder hc i)
      · exact List.mem_of_mem_drop (List.mem_of_mem_drop (replaceNoun_mem hc _ _ _ _ h))
    · rcases List.mem_cons.1 h with h | h
      · simp [h]
      · exact List.mem_cons_of_mem _ (replaceNoun_mem hc _ _ _ _ h)

omit hf hn ho in
theorem replaceNouns_mem {c : Char} (hc : Cut c) : ∀ (ns : List (List Char × List Char)) (i : Nat) (s : List Char),
    c ∈ (replaceNouns u ns i s).1 → c ∈ s
  | [], _, _, h => h
  | (canonical, key) :: ns, i, s, h => by
    rw [replaceNouns] at h
    exact replaceNoun_mem hc _ _ _ _ (replaceNouns_mem hc ns _ _ h)

theorem foldCase_processText (first : Bool) {s : List Char} (hm : '�' ∉ s) (hd : 'ı' ∉ s) :
    foldCase f (processText u n first s).1 = foldCase f s := by
  rw [processText]
  obtain ⟨d, h1, h2, h3, h4⟩ := replaceNouns_enc hf (multiwordNouns u n) (multiword_ok hf hn ho) [] s s (Enc.plain hm)
  simp only [List.length_nil, List.nil_append, Nat.zero_add] at h1 h3 h4
  have hdi : 'ı' ∉ (replaceNouns u (multiwordNouns u n) 0 s).1 := by
    exact fun h => hd (replaceNouns_mem (u := u) ⟨by decide, by decide⟩ _ _ _ h)
  generalize replaceNouns u (multiwordNouns u n) 0 s = r at *
  have hr : RepsOk r.2 := by
    intro x hx
    have : x.1 ∈ r.2.map (·.1) := List.mem_map.2 ⟨x, hx, rfl⟩
    rw [h3] at this
    obtain ⟨i, _, h⟩ := List.mem_mapIdx.1 this
    exact ⟨i, h.symm⟩
  have hres : restorePlaceholders r.1 r.2 = d := by
    refine restore_all (R := r.2.map (·.2)) ?_ (h1.encS fun c hc => (hf.digit c hc).1) _ ?_
    · intro x hx
      obtain ⟨y, hy, rfl⟩ := List.mem_map.1 hx
      exact h4 y hy
    · simp only [Nat.zero_add]
      apply List.ext_getElem?
      intro i
      have h5 := congrArg (·[i]?) h3
      simp only [List.getElem?_map, List.getElem?_mapIdx] at h5 ⊢
      cases hi : r.2[i]? with
      | none => rfl
      | some x =>
        rw [hi] at h5
        simp only [Option.map_some, Option.some.injEq] at h5 ⊢
        rw [← h5]
  have := restore_chars hf hn hr r.1 first false [] h1.marked hdi
  rw [List.nil_append, hres, h2] at this
  exact this

/-! ### Tokens -/

/-- The text of a token. -/
def htokText : HTok → List Char
  | .code s => s
  | .quote s d => inQuotes d s
  | .text s => s

/-- The text of tokens. -/
def toksText (ts : List HTok) : List Char := (ts.map htokText).flatten

omit hf hn ho in
theorem flushTok_text (cur : List Char) : toksText (flushTok cur) = cur := by
  unfold flushTok
  split
  · rename_i h; rw [h]; rfl
  · simp [toksText, htokText]

omit hf hn ho in
theorem takeWhile_drop {q : Char} {rest : List Char} (h : q ∈ rest) :
    rest = rest.takeWhile (· ≠ q) ++ q :: rest.drop ((rest.takeWhile (· ≠ q)).length + 1) := by
  induction rest with
  | nil => simp at h
  | cons c rest ih =>
    by_cases hc : c = q
    · simp [hc]
    · rw [List.takeWhile_cons_of_pos (by simpa using hc), List.length_cons, List.drop_succ_cons, List.cons_append,
        ← ih (by simpa [Ne.symm hc] using h)]

omit hf hn ho in
theorem toksText_append (a b : List HTok) : toksText (a ++ b) = toksText a ++ toksText b := by
  simp [toksText]

omit hf hn ho in
theorem toksText_cons (t : HTok) (b : List HTok) : toksText (t :: b) = htokText t ++ toksText b := by
  simp [toksText]

omit hf hn ho in
theorem tokenizeQuotes_text : ∀ (fuel : Nat) (cur s : List Char), s.length ≤ fuel →
    toksText (tokenizeQuotes fuel cur s) = cur ++ s
  | 0, cur, s, h => by
    rw [tokenizeQuotes, flushTok_text, List.length_eq_zero_iff.1 (Nat.le_zero.1 h), List.append_nil]
  | fuel + 1, cur, [], _ => by rw [tokenizeQuotes, flushTok_text, List.append_nil]
  | fuel + 1, cur, c :: rest, h => by
    have hl : ∀ k, (rest.drop k).length ≤ fuel := fun k => by simp at *; omega
    have unclosed : toksText (flushTok cur ++ [.text (c :: rest)]) = cur ++ c :: rest := by
      rw [toksText_append, flushTok_text]; simp [toksText, htokText]
    rw [tokenizeQuotes]
    split
    · rename_i hc
      split
      · rename_i hq
        rw [toksText_append, flushTok_text, toksText_cons, tokenizeQuotes_text fuel [] _ (hl _), htokText, inQuotes, if_pos rfl,
          List.nil_append]
        have := takeWhile_drop (q := '”') (rest := rest) (by simpa using hq)
        conv => rhs; rw [this, hc]
        simp
      · exact unclosed
    split
    · rename_i hc
      split
      · rename_i hq
        rw [toksText_append, flushTok_text, toksText_cons, tokenizeQuotes_text fuel [] _ (hl _), htokText, inQuotes,
          if_neg (by simp), List.nil_append]
        have := takeWhile_drop (q := '’') (rest := rest) (by simpa using hq)
        conv => rhs; rw [this, hc]
        simp
      · exact unclosed
    · rw [tokenizeQuotes_text fuel _ rest (by simpa using h)]
      simp

omit hf hn ho in
theorem foldCase_inQuotes (double : Bool) {a b : List Char} (h : foldCase f a = foldCase f b) :
    foldCase f (inQuotes double a) = foldCase f (inQuotes double b) := by
  cases double <;> simp [inQuotes, foldCase_append, foldCase_cons, h]

/-- Plain text: nothing in it that the folding does not allow. -/
def Allowed (s : List Char) : Prop := '�' ∉ s ∧ 'ı' ∉ s

omit hf hn ho in
theorem allowed_quote {d : Bool} {s : List Char} (h : Allowed (inQuotes d s)) : Allowed s := by
  constructor <;> intro hm
  · exact h.1 (by cases d <;> simp [inQuotes, hm])
  · exact h.2 (by cases d <;> simp [inQuotes, hm])

omit hf hn ho in
theorem allowed_toks {t : HTok} {ts : List HTok} (h : Allowed (toksText (t :: ts))) :
    Allowed (htokText t) ∧ Allowed (toksText ts) := by
  rw [toksText_cons] at h
  exact ⟨⟨fun hm => h.1 (by simp [hm]), fun hm => h.2 (by simp [hm])⟩,
    ⟨fun hm => h.1 (by simp [hm]), fun hm => h.2 (by simp [hm])⟩⟩

theorem foldCase_quotedToks {q : List Char → Bool → List Char}
    (hq : ∀ s d, Allowed s → foldCase f (q s d) = foldCase f (inQuotes d s)) : ∀ (ts : List HTok) (first : Bool),
    Allowed (toksText ts) → foldCase f (processQuotedToks u n q first ts) = foldCase f (toksText ts)
  | [], _, _ => rfl
  | .code s :: ts, first, h => by
    rw [processQuotedToks, foldCase_append, foldCase_quotedToks hq ts _ (allowed_toks h).2, toksText_cons, foldCase_append, htokText]
  | .quote s d :: ts, first, h => by
    rw [processQuotedToks, foldCase_append, foldCase_quotedToks hq ts _ (allowed_toks h).2, toksText_cons, foldCase_append, htokText,
      hq s d (allowed_quote (allowed_toks h).1)]
  | .text s :: ts, first, h => by
    have hs : Allowed s := (allowed_toks h).1
    rw [processQuotedToks, foldCase_append, foldCase_quotedToks hq ts _ (allowed_toks h).2, toksText_cons, foldCase_append, htokText,
      foldCase_processText hf hn ho first hs.1 hs.2]

theorem foldCase_quoted : ∀ (fuel : Nat) (s : List Char) (d : Bool), Allowed s →
    foldCase f (processQuoted u n fuel s d) = foldCase f (inQuotes d s)
  | 0, s, d, _ => rfl
  | fuel + 1, s, d, h => by
    rw [processQuoted]
    apply foldCase_inQuotes
    split
    · split
      · have e := tokenizeQuotes_text s.length [] s (Nat.le_refl _)
        rw [foldCase_quotedToks hf hn ho (fun s d hs => foldCase_quoted fuel s d hs) _ _ (by rw [e]; exact h), e, List.nil_append]
      · rfl
    · rfl

/-- The tokens of a heading: what they give, and how the state goes on. -/
theorem foldCase_sentenceToks : ∀ (ts : List HTok) (first : Bool), Allowed (toksText ts) →
    ∃ x first', foldCase f x = foldCase f (toksText ts) ∧ ∀ us, sentenceToks u n first (ts ++ us) = x ++ sentenceToks u n first' us
  | [], first, _ => ⟨[], first, rfl, fun _ => rfl⟩
  | .code s :: ts, first, h => by
    obtain ⟨x, first', h1, h2⟩ := foldCase_sentenceToks ts false (allowed_toks h).2
    exact ⟨s ++ x, first', by rw [foldCase_append, h1, toksText_cons, foldCase_append]; rfl,
      fun us => by rw [List.cons_append, sentenceToks, h2, List.append_assoc]⟩
  | .quote s d :: ts, first, h => by
    obtain ⟨x, first', h1, h2⟩ := foldCase_sentenceToks ts first (allowed_toks h).2
    exact ⟨processQuoted u n s.length s d ++ x, first', by
        rw [foldCase_append, h1, toksText_cons, foldCase_append, foldCase_quoted hf hn ho _ s d (allowed_quote (allowed_toks h).1)]; rfl,
      fun us => by rw [List.cons_append, sentenceToks, h2, List.append_assoc]⟩
  | .text s :: ts, first, h => by
    have hs : Allowed s := (allowed_toks h).1
    obtain ⟨x, first', h1, h2⟩ := foldCase_sentenceToks ts (processText u n first s).2 (allowed_toks h).2
    exact ⟨(processText u n first s).1 ++ x, first', by
        rw [foldCase_append, h1, toksText_cons, foldCase_append, foldCase_processText hf hn ho first hs.1 hs.2]; rfl,
      fun us => by rw [List.cons_append, sentenceToks, h2, List.append_assoc]⟩

omit hf hn ho in
theorem foldCase_normQuotes (hf : CaseFold u f) : ∀ (s : List Char) (opened : Bool) (prev : Option Char),
    foldCase f (normQuotes u opened prev s) = foldCase f s
  | [], _, _ => rfl
  | c :: s, opened, prev => by
    rw [normQuotes]
    split
    · rename_i hc
      split
      · rw [foldCase_cons, foldCase_cons, foldCase_normQuotes hf s, hc]
      split
      · rw [foldCase_cons, foldCase_cons, foldCase_normQuotes hf s, hc, hf.single.1]
      · rw [foldCase_cons, foldCase_cons, foldCase_normQuotes hf s, hc, hf.single.2]
    split
    · rename_i hc
      rw [foldCase_cons, foldCase_cons, foldCase_normQuotes hf s, hc]
      split
      · rw [hf.double.1]
      · rw [hf.double.2]
    · rw [foldCase_cons, foldCase_cons, foldCase_normQuotes hf s]

omit hf hn ho in
theorem mem_normQuotes {x : Char} : ∀ (s : List Char) (opened : Bool) (prev : Option Char),
    x ∈ normQuotes u opened prev s → x ∈ s ∨ x ∈ ['‘', '’', '“', '”']
  | [], _, _, h => by simp [normQuotes] at h
  | c :: s, opened, prev, h => by
    have step : ∀ (y : Char) (o : Bool) (p : Option Char), (y = c ∨ y ∈ ['‘', '’', '“', '”']) →
        x ∈ y :: normQuotes u o p s → x ∈ c :: s ∨ x ∈ ['‘', '’', '“', '”'] := by
      intro y o p hy h
      rcases List.mem_cons.1 h with rfl | h
      · rcases hy with rfl | hy
        · exact .inl (by simp)
        · exact .inr hy
      · rcases mem_normQuotes s o p h with h | h
        · exact .inl (by simp [h])
        · exact .inr h
    rw [normQuotes] at h
    split at h
    · rename_i hc
      split at h
      · exact step _ _ _ (.inl hc.symm) h
      split at h
      · exact step _ _ _ (.inr (by simp)) h
      · exact step _ _ _ (.inr (by simp)) h
    split at h
    · split at h
      · exact step _ _ _ (.inr (by simp)) h
      · exact step _ _ _ (.inr (by simp)) h
    · exact step _ _ _ (.inl rfl) h

omit hf hn ho in
theorem tokenizeText_text (cur : List Char) : toksText (tokenizeText u cur) = normQuotes u false none cur := by
  rw [tokenizeText]
  exact tokenizeQuotes_text _ [] _ (Nat.le_refl _)

theorem foldCase_piece {cur : List Char} (h : Allowed cur) (first : Bool) : ∃ x first', foldCase f x = foldCase f (normQuotes u false none cur) ∧
    ∀ us, sentenceToks u n first (tokenizeText u cur ++ us) = x ++ sentenceToks u n first' us := by
  obtain ⟨x, first', h1, h2⟩ := foldCase_sentenceToks hf hn ho (tokenizeText u cur) first (by
    rw [tokenizeText_text]
    constructor <;> intro hm
    · rcases mem_normQuotes _ _ _ hm with h' | h'
      · exact h.1 h'
      · exact absurd h' (by decide)
    · rcases mem_normQuotes _ _ _ hm with h' | h'
      · exact h.2 h'
      · exact absurd h' (by decide))
  exact ⟨x, first', by rw [h1, tokenizeText_text], h2⟩

/-- The pieces between the backquotes. -/
theorem foldCase_tokenizeCode : ∀ (fuel : Nat) (s cur : List Char) (first : Bool), s.length ≤ fuel → Allowed (cur ++ s) → '`' ∉ cur →
    ∃ outs, sentenceToks u n first (tokenizeCode u fuel cur s) = joinWith ['`'] outs ∧ outs ≠ [] ∧
      Alternate (fun a b => foldCase f (normQuotes u false none a) = foldCase f b) false (splitOn '`' (cur ++ s)) outs := by
  intro fuel
  induction fuel using Nat.strongRecOn with
  | ind fuel ih =>
    intro s cur first hl ha hc
    have fin : ∀ cur first, Allowed cur → '`' ∉ cur → ∃ outs, sentenceToks u n first (tokenizeText u cur) = joinWith ['`'] outs ∧ outs ≠ [] ∧
        Alternate (fun a b => foldCase f (normQuotes u false none a) = foldCase f b) false (splitOn '`' cur) outs := by
      intro cur first ha hc
      obtain ⟨x, first', h1, h2⟩ := foldCase_piece hf hn ho ha first
      refine ⟨[x], ?_, by simp, ?_⟩
      · have := h2 []
        rw [List.append_nil, sentenceToks, List.append_nil] at this
        rw [this]; simp [joinWith]
      · rw [splitOn_of_not_mem hc]
        exact ⟨h1.symm, trivial⟩
    cases s with
    | nil =>
      rw [List.append_nil] at ha ⊢
      have : tokenizeCode u fuel cur [] = tokenizeText u cur := by cases fuel <;> rfl
      rw [this]
      exact fin cur first ha hc
    | cons c rest =>
      cases fuel with
      | zero => simp at hl
      | succ fuel =>
        rw [tokenizeCode]
        split
        · rename_i hb
          subst hb
          have hacur : Allowed cur := ⟨fun h => ha.1 (by simp [h]), fun h => ha.2 (by simp [h])⟩
          have harest : Allowed rest := ⟨fun h => ha.1 (by simp [h]), fun h => ha.2 (by simp [h])⟩
          obtain ⟨x, first', h1, h2⟩ := foldCase_piece hf hn ho hacur first
          rw [h2, sentenceToks, splitOn_append_sep hc]
          by_cases hq : '`' ∈ rest
          · have e := takeWhile_drop hq
            generalize htw : rest.takeWhile (· ≠ '`') = code at e
            generalize hdr : rest.drop (code.length + 1) = rest' at e
            have hcode : '`' ∉ code := by
              rw [← htw]
              intro h
              have := List.all_takeWhile (p := fun c => decide (c ≠ '`')) (l := rest)
              rw [List.all_eq_true] at this
              simpa using this _ h
            have hcs : codeSpanOf rest = '`' :: code ++ ['`'] := by
              rw [codeSpanOf, htw, if_pos (by simpa using hq)]
            have harest' : Allowed rest' :=
              ⟨fun h => harest.1 (by rw [e]; simp [h]), fun h => harest.2 (by rw [e]; simp [h])⟩
            obtain ⟨outs, g1, g2, g3⟩ := ih fuel (by omega) rest' [] false (by
              have := congrArg List.length e
              simp at this hl ⊢
              omega) (by simpa using harest') (by simp)
            refine ⟨x :: code :: outs, ?_, by simp, ?_⟩
            · rw [g1, hcs, joinWith_cons _ _ (by simp), joinWith_cons _ _ g2]
              simp
            · rw [e, splitOn_append_sep hcode]
              exact ⟨h1.symm, rfl, g3⟩
          · have htw : rest.takeWhile (· ≠ '`') = rest := by
              have := List.takeWhile_append_of_pos (p := fun c => decide (c ≠ '`')) (l₁ := rest) (l₂ := []) (by
                intro c hc
                simp only [decide_eq_true_eq]
                rintro rfl
                exact hq hc)
              simpa using this
            refine ⟨[x, rest], ?_, by simp, ?_⟩
            · rw [htw, List.drop_of_length_le (by omega), codeSpanOf, htw, if_neg (by simpa using hq)]
              have : tokenizeCode u fuel [] [] = [] := by cases fuel <;> rfl
              rw [this, sentenceToks]
              simp [joinWith]
            · rw [splitOn_of_not_mem hq]
              exact ⟨h1.symm, rfl, trivial⟩
        · rename_i hb
          obtain ⟨outs, g1, g2, g3⟩ := ih fuel (by omega) rest (cur ++ [c]) first (by simpa using hl) (by simpa using ha)
            (by simp [hc, Ne.symm hb])
          exact ⟨outs, g1, g2, by simpa using g3⟩

omit hf hn ho in
theorem alternate_fold : ∀ (as bs : List (List Char)) (b : Bool), Alternate (fun a b => foldCase f a = foldCase f b) b as bs →
    foldCase f (joinWith ['`'] as) = foldCase f (joinWith ['`'] bs)
  | [], [], _, _ => rfl
  | [], _ :: _, b, h => by cases b <;> exact h.elim
  | _ :: _, [], b, h => by cases b <;> exact h.elim
  | x :: as, y :: bs, b, h => by
    have h1 : foldCase f x = foldCase f y := by
      cases b
      · exact h.1
      · exact congrArg (foldCase f) h.1
    have h2 : ∃ b', Alternate (fun a b => foldCase f a = foldCase f b) b' as bs := by
      cases b
      · exact ⟨_, h.2⟩
      · exact ⟨_, h.2⟩
    obtain ⟨b', h2⟩ := h2
    have ih := alternate_fold as bs b' h2
    cases as with
    | nil =>
      cases bs with
      | nil => simpa [joinWith] using h1
      | cons _ _ => cases b' <;> exact h2.elim
    | cons a as =>
      cases bs with
      | nil => cases b' <;> exact h2.elim
      | cons c bs =>
        rw [joinWith_cons _ x (l := a :: as) (by simp), joinWith_cons _ y (l := c :: bs) (by simp), foldCase_append, foldCase_append,
          foldCase_append, foldCase_append, h1, ih]

omit hf hn ho in
theorem alternate_mono {R S : List Char → List Char → Prop} (h : ∀ a b, R a b → S a b) : ∀ (as bs : List (List Char)) (b : Bool),
    Alternate R b as bs → Alternate S b as bs
  | [], [], _, _ => trivial
  | [], _ :: _, b, h => by cases b <;> exact h.elim
  | _ :: _, [], b, h => by cases b <;> exact h.elim
  | x :: as, y :: bs, false, h' => ⟨h _ _ h'.1, alternate_mono h as bs _ h'.2⟩
  | x :: as, y :: bs, true, h' => ⟨h'.1, alternate_mono h as bs _ h'.2⟩

end

end Hongdown
