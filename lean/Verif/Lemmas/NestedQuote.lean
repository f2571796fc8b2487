import Verif.Lemmas.NestedWritten

/-!
# The lines that are written for block quotes are read back
-/

namespace Hongdown
open Model Spec

/-! ### The first word -/

theorem alert_word : ∀ l : List Char, ['[', '!'].isPrefixOf l = ['[', '!'].isPrefixOf ((splitOn ' ' l).headD [])
  | [] => rfl
  | c :: l => by
    rw [splitOn]
    by_cases hc : c = ' '
    · subst hc; rfl
    · rw [if_neg hc]
      cases hs : splitOn ' ' l with
      | nil => exact absurd hs (splitOn_ne_nil _ _)
      | cons w r =>
        simp only [List.headD_cons]
        cases l with
        | nil =>
          have : w = [] := by
            rw [splitOn] at hs
            cases hs; rfl
          rw [this]
        | cons d l =>
          rw [splitOn] at hs
          by_cases hd : d = ' '
          · rw [if_pos hd] at hs
            cases hs
            subst hd
            simp [List.isPrefixOf]
          · rw [if_neg hd] at hs
            cases hs2 : splitOn ' ' l with
            | nil => exact absurd hs2 (splitOn_ne_nil _ _)
            | cons v r =>
              rw [hs2] at hs
              cases hs
              simp [List.isPrefixOf]

theorem lineWords_head {ls : List (List Char)} (h0 : ls ≠ []) : (lineWords ls).headD [] = (splitOn ' ' (ls.headD [])).headD [] := by
  obtain ⟨l, r, rfl⟩ := List.exists_cons_of_ne_nil h0
  rw [lineWords, List.flatMap_cons]
  cases hs : splitOn ' ' l with
  | nil => exact absurd hs (splitOn_ne_nil _ _)
  | cons w r => simp [hs]

theorem alert_same {ls ms : List (List Char)} (h0 : ls ≠ []) (m0 : ms ≠ []) (h : lineWords ms = lineWords ls) :
    ['[', '!'].isPrefixOf (ms.headD []) = ['[', '!'].isPrefixOf (ls.headD []) := by
  rw [alert_word, alert_word (ls.headD []), ← lineWords_head h0, ← lineWords_head m0, h]

/-! ### The blocks -/

/-- An empty line at the end does not matter. -/
theorem readLines_trailing : ∀ (X : List (List Char)) (m : ReadMode) (cs : List CoreBlock),
    (∀ f ls, m = .code f ls → 0 < f.length) → readLines m (X ++ [[]]) = some cs → readLines m X = some cs
  | [], .none, cs, _, h => by
    rw [List.nil_append, readLines_blank] at h
    exact h
  | [], .paragraph ls, cs, _, h => by
    rw [List.nil_append, readLines] at h
    simp only [underline_nil, lineKind_blank, readLines, Option.map_some, Option.some.injEq] at h
    rw [readLines, h]
  | [], .code f ls, cs, ho, h => by
    rw [List.nil_append, readLines] at h
    have hc : isClosing f.char f.length [] = false := by
      have := ho f ls rfl
      have : ¬ f.length = 0 := by omega
      simp [isClosing, this]
    rw [hc] at h
    simp [readLines] at h
  | x :: X, m, cs, ho, h => by
    have ih := fun {m cs} (ho : ∀ f ls, m = .code f ls → 0 < f.length) (h : readLines m (X ++ [[]]) = some cs) => readLines_trailing X m cs ho h
    have add : ∀ {m} {as : List CoreBlock}, (∀ f ls, m = .code f ls → 0 < f.length) → (readLines m (X ++ [[]])).map (as ++ ·) = some cs →
        (readLines m X).map (as ++ ·) = some cs := by
      intro m as ho h
      obtain ⟨y, hy, rfl⟩ := map_some h
      rw [ih ho hy]; rfl
    have fence : ∀ {l f}, lineKind l = .fence f → 0 < f.length := by
      intro l f h
      have h := (lineKind_isFence h).1
      unfold readOpening at h
      simp only at h
      split at h
      · cases h
      · split at h
        · cases h
        · split at h
          · rename_i h3
            cases h
            exact Nat.lt_of_lt_of_le (by decide) h3.2
          · cases h
    cases m with
    | none =>
      rw [List.cons_append, readLines] at h
      rw [readLines]
      cases hk : lineKind x with
      | blank => simp only [hk] at h ⊢; exact ih (by simp) h
      | rule => simp only [hk] at h ⊢; exact add (as := [.rule]) (by simp) h
      | text => simp only [hk] at h ⊢; exact ih (by simp) h
      | heading level t => simp only [hk] at h ⊢; exact add (as := [.heading level [t]]) (by simp) h
      | fence f => simp only [hk] at h ⊢; exact ih (by rintro _ _ ⟨⟩; exact fence hk) h
      | definition _ _ => simp only [hk] at h; cases h
      | other => simp only [hk] at h; cases h
    | paragraph ls =>
      rw [List.cons_append, readLines] at h
      rw [readLines]
      cases hu : underline x with
      | some level => simp only [hu] at h ⊢; exact add (as := [.heading level ls]) (by simp) h
      | none =>
        simp only [hu] at h ⊢
        cases hk : lineKind x with
        | blank => simp only [hk] at h ⊢; exact add (as := [.paragraph ls]) (by simp) h
        | rule =>
          simp only [hk] at h ⊢
          split at h
          · cases h
          · next hc => rw [if_neg hc]; exact add (as := [.paragraph ls, .rule]) (by simp) h
        | text => simp only [hk] at h ⊢; exact ih (by simp) h
        | heading level t => simp only [hk] at h ⊢; exact add (as := [.paragraph ls, .heading level [t]]) (by simp) h
        | fence f => simp only [hk] at h ⊢; exact add (as := [.paragraph ls]) (by rintro _ _ ⟨⟩; exact fence hk) h
        | definition _ _ => simp only [hk] at h; cases h
        | other => simp only [hk] at h; cases h
    | code f ls =>
      rw [List.cons_append, readLines] at h
      rw [readLines]
      split at h
      · next hc => rw [if_pos hc]; exact add (as := [.code f.info ls]) (by simp) h
      · next hc => rw [if_neg hc]; exact ih (by rintro _ _ ⟨⟩; exact ho f ls rfl) h

/-- What is known of the lines that are written for a block of a block quote, and of the block that is
read back. -/
structure WrittenQuoted (cx : Cx) (b b' : CoreBlock) (L : List (List Char)) : Prop where
  text : quotedText cx b = unlines (L.map marked)
  same : SameBlock cx.opts.defaultLanguage b b'
  fit : FitWidth cx.width → FitsQuote (FitsOrWord cx.width cx.opts.lineWidth) [b']
  keep : FitWidth cx.width → FitsQuote (Fits cx.width cx.opts.lineWidth) [b] → paragraphLines [b'] = paragraphLines [b]
  again : quotedText cx b' = quotedText cx b
  alert : alertLike [b'] = alertLike [b]
  first : ∀ l ∈ L.head?, blankLine l = false ∧ ['[', '!'].isPrefixOf l = alertLike [b']
  chars : ∀ l ∈ L, '\n' ∉ l ∧ '\r' ∉ l ∧ '\x00' ∉ l
  tabs : NoTabs L
  ne : L ≠ []
  reads : ∀ rest, readLines .none (L ++ [] :: rest) = (readLines .none rest).map (b' :: ·)

theorem pfxOk_quote : PfxOk ['>', ' '] := .inr rfl

theorem Spec.FitWidth.quote {w : List Char → Nat} (h : FitWidth w) : w ['>', ' '] = 2 := by
  have := h.space ['>'] []
  rw [h.marker, h.nil] at this
  exact this

theorem marked_text {ms : List (List Char)} (mt : ∀ m ∈ ms, TextLine m) : ms.map (['>', ' '] ++ ·) = ms.map marked := by
  refine List.map_congr_left fun m hm => ?_
  rw [marked, if_neg (textLine_ne_nil (mt m hm))]; rfl

theorem written_quoted_paragraph (cx : Cx) {ls : List (List Char)} (hv : CoreValid (.paragraph ls)) :
    ∃ b' L, WrittenQuoted cx (.paragraph ls) b' L := by
  obtain ⟨hv0, hv1, ha⟩ := hv
  have one : ∀ text : List Char, '\n' ∉ text → wrapText cx.width text ['>', ' '] cx.opts.lineWidth =
      wrapSegment cx.width text ['>', ' '] ['>', ' '] cx.opts.lineWidth := by
    intro text ht
    rw [wrapText, splitOn_of_not_mem ht]; rfl
  obtain ⟨ms, m0, mt, hw, hsame, _, e1, e2⟩ := wrapSegment_plain cx.width ['>', ' '] ['>', ' '] cx.opts.lineWidth hv0 hv1 ha
  rw [layout_same] at e1 e2
  have q1 : quotedText cx (.paragraph ls) = joinWith ['\n'] (ms.map (['>', ' '] ++ ·)) ++ ['\n'] := by
    rw [quotedText, one _ (joinLines_no hv1 (by decide) (by decide) (by decide)), e1]
  have q2 : quotedText cx (.paragraph ms) = joinWith ['\n'] (ms.map (['>', ' '] ++ ·)) ++ ['\n'] := by
    rw [quotedText, one _ (joinLines_no mt (by decide) (by decide) (by decide)), e2]
  refine ⟨.paragraph ms, ms, ?_, ⟨hw.symm, hsame⟩, fun hwo => ?_, fun hwo hfit => ?_, by rw [q1, q2], alert_same hv0 m0 hw, ?_,
    fun l hl => textLine_chars (mt l hl), fun l hl _ => textLine_noTab (mt l hl), m0, ?_⟩
  · rw [q1, unlines_joinWith _ (by simpa using m0), marked_text mt]
  · have := parFits_at hwo.toWidthOk pfxOk_quote (by decide) _ hv0 hv1 mt e1
    rw [hwo.quote] at this
    exact ⟨this, trivial⟩
  · have hfit := hfit.1
    rw [← hwo.quote] at hfit
    have e4 := wrapSegment_keepAt hwo.toWidthOk pfxOk_quote hv0 hv1 hfit
    rw [e1] at e4
    have hno : ∀ {xs : List (List Char)}, (∀ x ∈ xs, TextLine x) → ∀ l ∈ xs.map (['>', ' '] ++ ·), '\n' ∉ l := by
      intro xs hx l hl
      obtain ⟨x, hm, rfl⟩ := List.mem_map.1 hl
      have := textLine_not_mem (hx x hm) '\n' (by decide) (by decide)
      simpa using this
    have h2 := splitOn_join (by simpa using m0) (hno mt)
    rw [e4, splitOn_join (by simpa using hv0) (hno hv1)] at h2
    rw [(List.map_inj_right (fun a b h => List.append_cancel_left h)).1 h2]
  · intro l hl
    obtain ⟨m, r, rfl⟩ := List.exists_cons_of_ne_nil m0
    obtain rfl : m = l := by simpa using hl
    exact ⟨blankLine_text (mt m (by simp)), rfl⟩
  · intro rest
    obtain ⟨m, r, rfl⟩ := List.exists_cons_of_ne_nil m0
    rw [List.cons_append, readLines, lineKind_text (mt m (by simp))]
    simp only
    rw [readLines_text r [m] (fun x hx => mt x (by simp [hx])), readLines, underline_nil]
    simp only [lineKind_blank]
    rfl

theorem codeBlockText_quote {cx : Cx} {info content : List Char} (h : fenceOf cx content ≠ []) :
    codeBlockText cx true info content =
      unlines (((fenceOf cx content ++ infoPart cx info) :: lines content ++ [fenceOf cx content]).map marked) := by
  have e2 : ∀ x, marked (fenceOf cx content ++ x) = ['>', ' '] ++ (fenceOf cx content ++ x) := by
    intro x
    rw [marked, if_neg]
    · rfl
    · simp [h]
  have e3 : marked (fenceOf cx content) = ['>', ' '] ++ fenceOf cx content := by simpa using e2 []
  have e1 : quoteLine = marked := by
    funext l
    rw [quoteLine, marked]
    split
    · next h => simp [h]
    · rfl
  rw [codeBlockText_true, e1, List.map_append, List.map_cons, e2, List.map_singleton, e3]
  simp

theorem written_quoted_code {cx : Cx} (ho : CoreOptions cx.opts) {info : List Char} {ls : List (List Char)}
    (hg : LeafGood cx (.code info ls)) : ∃ b' L, WrittenQuoted cx (.code info ls) b' L := by
  have h := written_code_at ho hg.valid hg.fits
  have hne : fenceOf cx (unlines ls) ≠ [] := h.last _ (by rw [List.getLast?_concat]; rfl)
  refine ⟨_, _, ?_, h.same, fun _ => trivial, fun _ _ => rfl, ?_, rfl, ?_, h.chars, h.tabs hg.tabs, h.ne, h.reads⟩
  · rw [quotedText, codeBlockText_quote hne, lines_unlines hg.valid.1]
  · rw [quotedText, quotedText, codeBlockText_quote hne, codeBlockText_quote hne]
    simp only [infoPart, outputInfo_eq, shownInfo_twice ho.language.2.1]
  · intro l hl
    refine ⟨(blockStart_line (h.start l hl)).2.1, ?_⟩
    obtain ⟨c, x, e⟩ := List.exists_cons_of_ne_nil hne
    have hc : c = cx.opts.fenceChar := by
      have : c ∈ fenceOf cx (unlines ls) := by rw [e]; simp
      exact (List.mem_replicate.1 this).2
    obtain rfl : fenceOf cx (unlines ls) ++ infoPart cx info = l := by simpa using hl
    rw [e, hc]
    rcases ho.fence with e | e <;> rw [e] <;> simp [List.isPrefixOf, alertLike]

theorem written_quoted_rule {cx : Cx} (ho : CoreOptions cx.opts) : ∃ b' L, WrittenQuoted cx .rule b' L := by
  refine ⟨.rule, [spaces cx.opts.thematicBreakLeadingSpaces ++ cx.opts.thematicBreakStyle], ?_, trivial, fun _ => trivial, fun _ _ => rfl, rfl, rfl, ?_, ?_, ?_,
    by simp, ?_⟩
  · have hne : spaces cx.opts.thematicBreakLeadingSpaces ++ cx.opts.thematicBreakStyle ≠ [] := by
      intro e
      have := isRule_not_blank ho.rule
      rw [e] at this; cases this
    rw [quotedText, List.map_singleton, marked, if_neg hne]
    simp [unlines]
  · intro l hl
    obtain rfl : spaces cx.opts.thematicBreakLeadingSpaces ++ cx.opts.thematicBreakStyle = l := by simpa using hl
    refine ⟨isRule_not_blank ho.rule, ?_⟩
    cases hp : ['[', '!'].isPrefixOf (spaces cx.opts.thematicBreakLeadingSpaces ++ cx.opts.thematicBreakStyle) with
    | false => rfl
    | true =>
      have := (List.isPrefixOf_iff_prefix.1 hp).subset (a := '[') (by simp)
      exact absurd (rule_chars ho.rule this) (by decide)
  · intro l hm
    rw [List.mem_singleton] at hm
    subst hm
    exact ⟨fun h => absurd (rule_chars ho.rule h) (by decide), fun h => absurd (rule_chars ho.rule h) (by decide),
      fun h => absurd (rule_chars ho.rule h) (by decide)⟩
  · intro l hl hb
    rw [List.mem_singleton] at hl
    subst hl
    have := isRule_not_blank ho.rule
    rw [hb] at this; cases this
  · intro rest
    rw [List.singleton_append, readLines, lineKind_rule ho.rule]
    simp only [readLines_blank]

/-- What is known of the lines that are written for a block quote. -/
structure WrittenQuote (cx : Cx) (bs bs' : List CoreBlock) (L : List (List Char)) : Prop where
  text : quoteText cx bs = unlines (L.map marked)
  same : SameDoc cx.opts.defaultLanguage bs bs'
  fit : FitWidth cx.width → FitsQuote (FitsOrWord cx.width cx.opts.lineWidth) bs'
  keep : FitWidth cx.width → FitsQuote (Fits cx.width cx.opts.lineWidth) bs → paragraphLines bs' = paragraphLines bs
  again : quoteText cx bs' = quoteText cx bs
  alert : alertLike bs' = alertLike bs
  first : ∀ l ∈ L.head?, blankLine l = false ∧ ['[', '!'].isPrefixOf l = alertLike bs'
  chars : ∀ l ∈ L, '\n' ∉ l ∧ '\r' ∉ l ∧ '\x00' ∉ l
  tabs : NoTabs L
  ne : L ≠ []
  reads : readLines .none (L ++ [[]]) = some bs'

theorem alertLike_cons (b : CoreBlock) (bs : List CoreBlock) : alertLike (b :: bs) = alertLike [b] := by
  cases b <;> rfl

theorem fitsQuote_cons {ok : Nat → List Char → Prop} (b : CoreBlock) (bs : List CoreBlock) :
    FitsQuote ok (b :: bs) ↔ FitsQuote ok [b] ∧ FitsQuote ok bs := by
  cases b <;> simp [FitsQuote]

theorem written_quoted {cx : Cx} (ho : CoreOptions cx.opts) {b : CoreBlock} (hg : LeafGood cx b) (hs : b.staysInQuote = true) :
    ∃ b' L, WrittenQuoted cx b b' L := by
  cases b with
  | paragraph ls => exact written_quoted_paragraph cx hg.valid
  | code info ls => exact written_quoted_code ho hg
  | heading _ _ => cases hs
  | rule => exact written_quoted_rule ho
  | definition _ _ => cases hs

theorem written_quote {cx : Cx} (ho : CoreOptions cx.opts) : ∀ (bs : List CoreBlock), bs ≠ [] → (∀ b ∈ bs, LeafGood cx b) →
    bs.all CoreBlock.staysInQuote = true → ∃ bs' L, WrittenQuote cx bs bs' L
  | [], h, _, _ => absurd rfl h
  | [b], _, hg, hs => by
    obtain ⟨b', L, h⟩ := written_quoted ho (hg b (by simp)) (by simpa using hs)
    refine ⟨[b'], L, h.text, ⟨h.same, trivial⟩, h.fit, h.keep, h.again, h.alert, h.first, h.chars, h.tabs, h.ne, ?_⟩
    rw [h.reads]; rfl
  | b :: c :: bs, _, hg, hs => by
    rw [List.all_cons, Bool.and_eq_true] at hs
    obtain ⟨b', L, h⟩ := written_quoted ho (hg b (by simp)) hs.1
    obtain ⟨bs', M, ih⟩ := written_quote ho (c :: bs) (by simp) (fun x hx => hg x (List.mem_cons_of_mem _ hx)) hs.2
    obtain ⟨c', bs', rfl⟩ : ∃ c' cs, bs' = c' :: cs := by
      cases bs' with
      | nil => exact absurd ih.same id
      | cons c' cs => exact ⟨c', cs, rfl⟩
    have cons : ∀ x y zs, quoteText cx (x :: y :: zs) = quotedText cx x ++ ['>', '\n'] ++ quoteText cx (y :: zs) := fun _ _ _ => rfl
    refine ⟨b' :: c' :: bs', L ++ [] :: M, ?_, ⟨h.same, ih.same⟩, fun hwo => ?_, fun hwo hfit => ?_, ?_, ?_, ?_, ?_, ?_, by simp [h.ne], ?_⟩
    · rw [cons, h.text, ih.text]
      simp [unlines, marked]
    · exact (fitsQuote_cons _ _).2 ⟨h.fit hwo, ih.fit hwo⟩
    · obtain ⟨h1, h2⟩ := (fitsQuote_cons _ _).1 hfit
      have e : ∀ (x : CoreBlock) xs, paragraphLines (x :: xs) = paragraphLines [x] ++ paragraphLines xs := fun x xs => paragraphLines_append [x] xs
      rw [e b', e b, h.keep hwo h1, ih.keep hwo h2]
    · rw [cons, cons, h.again, ih.again]
    · rw [alertLike_cons, h.alert, ← alertLike_cons]
    · intro l hl
      rw [alertLike_cons]
      obtain ⟨x, M', e⟩ := List.exists_cons_of_ne_nil h.ne
      exact h.first l (by rw [e] at hl ⊢; exact hl)
    · intro l hl
      simp only [List.mem_append, List.mem_cons] at hl
      rcases hl with hl | rfl | hl
      · exact h.chars l hl
      · simp
      · exact ih.chars l hl
    · intro l hl
      simp only [List.mem_append, List.mem_cons] at hl
      rcases hl with hl | rfl | hl
      · exact h.tabs l hl
      · simp
      · exact ih.tabs l hl
    · rw [List.append_assoc, List.cons_append, h.reads, ih.reads]; rfl

end Hongdown
