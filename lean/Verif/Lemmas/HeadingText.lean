import Verif.Spec.HeadingRead
import Verif.Props.Punctuation
import Verif.Lemmas.Escape
import Verif.Lemmas.Table
import Verif.Lemmas.Frame
import Verif.Model.Document

/-! # Lemmas on the text of headings -/

namespace Hongdown
open Model Spec

/-- The text of a heading. -/
def headingShown (cx : Cx) (cs : List Node) (st : St) : List Char :=
  if cx.opts.headingSentenceCase then toSentenceCase cx.uni (headingNouns cx st) (collectTexts cx cs).1
  else (collectTexts cx cs).1

theorem ser_heading_output (cx : Cx) (level : Nat) (p : Pos) (cs : List Node) (nb : Bool) (st : St) :
    (ser cx (.mk (.heading level) p cs) nb st).output = st.output ++ headingText cx level (headingShown cx cs st) := by
  simp only [ser, dispatch, serHeading, serKids_nodes, St.push, (addReferences_fields _ st).1]
  rfl

/-! ### Reading back -/

theorem dropWhile_rev_of {p : Char → Bool} {s : List Char} (h : ∀ c, s.getLast? = some c → p c = false) :
    (s.reverse.dropWhile p).reverse = s := by
  rcases List.eq_nil_or_concat s with rfl | ⟨s, c, rfl⟩
  · rfl
  · simp [h c (by simp)]

theorem dropClosing_of {s : List Char} (h : ∀ c, s.getLast? = some c → c ≠ '#' ∧ blankChar c = false) :
    dropClosing s = s := by
  unfold dropClosing
  have e1 : (s.reverse.dropWhile (fun c => decide (c = '#'))).reverse = s :=
    dropWhile_rev_of fun c hc => by simpa using (h c hc).1
  simp only [e1]
  split
  · exact dropWhile_rev_of fun c hc => (h c hc).2
  · rfl

theorem HeadingOk.ne_nil {width : List Char → Nat} {text : List Char} (h : HeadingOk width text) : text ≠ [] := by
  rintro rfl
  exact absurd h.start (by decide)

theorem atxLine_of {text : List Char} (hstart : ∀ c, text.head? = some c → blankChar c = false)
    (hstop : ∀ c, text.getLast? = some c → c ≠ '#' ∧ blankChar c = false) {level : Nat} (h1 : 1 ≤ level) (h6 : level ≤ 6) :
    atxLine (List.replicate level '#' ++ [' '] ++ text) = some (level, text) := by
  have e1 : (List.replicate level '#' ++ [' '] ++ text).takeWhile (fun c => decide (c = '#')) = List.replicate level '#' := by
    rw [List.append_assoc, List.takeWhile_append_of_pos (by intro c hc; simp [List.eq_of_mem_replicate hc])]
    simp
  have e2 : (List.replicate level '#' ++ [' '] ++ text).drop level = ' ' :: text := by
    rw [List.append_assoc, List.drop_append_of_le_length (by simp), List.drop_of_length_le (by simp)]
    rfl
  have e3 : (' ' :: text).dropWhile blankChar = text := by
    rw [List.dropWhile_cons_of_pos (by decide)]
    cases text with
    | nil => rfl
    | cons d t => rw [List.dropWhile_cons_of_neg (by simp [hstart d rfl])]
  unfold atxLine
  simp only [e1, List.length_replicate, e2, e3]
  rw [if_pos ⟨h1, h6, .inr (by simp [blankChar])⟩, dropWhile_rev_of (fun c hc => (hstop c hc).2),
    dropClosing_of hstop]

theorem atx_reads {width : List Char → Nat} {text : List Char} (h : HeadingOk width text) {level : Nat} (h1 : 1 ≤ level) (h6 : level ≤ 6) :
    readHeading (List.replicate level '#' ++ [' '] ++ text ++ ['\n']) = some (level, text) := by
  have hno : '\n' ∉ List.replicate level '#' ++ [' '] ++ text := by
    simp only [List.mem_append, not_or]
    refine ⟨⟨?_, by decide⟩, h.line⟩
    intro hm
    exact absurd (List.eq_of_mem_replicate hm) (by decide)
  rw [readHeading, show List.replicate level '#' ++ [' '] ++ text ++ ['\n'] = (List.replicate level '#' ++ [' '] ++ text) ++ '\n' :: [] from by simp,
    splitOn_append_sep hno]
  have hstart : ∀ c, text.head? = some c → blankChar c = false := by
    intro c hc
    cases text with
    | nil => simp at hc
    | cons d t =>
      simp only [List.head?_cons, Option.some.injEq] at hc
      subst hc
      have := h.start
      simp only [startsBlock, Bool.or_eq_false_iff] at this
      exact this.1.1.1.1.1.1.1.1.1.1
  simp only [atxLine_of hstart h.stop h1 h6]

theorem setext_reads {width : List Char → Nat} {text : List Char} (h : HeadingOk width text) {c : Char} (hc : c = '=' ∨ c = '-') :
    readHeading (text ++ ['\n'] ++ List.replicate (width text) c ++ ['\n']) = some (if c = '=' then 1 else 2, text) := by
  have hno : '\n' ∉ List.replicate (width text) c := by
    intro hm
    have := List.eq_of_mem_replicate hm
    rcases hc with rfl | rfl <;> exact absurd this (by decide)
  rw [readHeading, show text ++ ['\n'] ++ List.replicate (width text) c ++ ['\n'] = text ++ '\n' :: (List.replicate (width text) c ++ '\n' :: []) from by simp,
    splitOn_append_sep h.line, splitOn_append_sep hno]
  have e : atxLine text = none := by
    unfold atxLine
    have : text.takeWhile (fun c => decide (c = '#')) = [] := by
      cases text with
      | nil => rfl
      | cons d t =>
        have := h.atx
        simp only [List.head?_cons, ne_eq, Option.some.injEq] at this
        simp [this]
    simp [this]
  have hu : underline (List.replicate (width text) c) = some (if c = '=' then 1 else 2) := by
    have hw := h.width
    have hne : List.replicate (width text) c ≠ [] := by
      intro e
      have := congrArg List.length e
      simp at this
      omega
    have hall : ∀ d : Char, (List.replicate (width text) c).all (fun x => decide (x = d)) = decide (c = d) := by
      intro d
      rw [Bool.eq_iff_iff, List.all_eq_true]
      simp only [decide_eq_true_eq]
      constructor
      · intro h; exact h c (by rw [List.mem_replicate]; exact ⟨by omega, rfl⟩)
      · intro h x hx; rw [List.eq_of_mem_replicate hx, h]
    unfold underline
    simp only [hall]
    rcases hc with rfl | rfl
    · rw [if_pos ⟨hne, by decide⟩]; rfl
    · rw [if_neg (by rintro ⟨_, h⟩; exact absurd h (by decide)), if_pos ⟨hne, by decide⟩]; rfl
  simp only [e, h.start, Bool.false_eq_true, if_false, List.head?_cons, Option.bind_some, hu, Option.map_some]

/-! ### Content -/

theorem filter_content_fold {en em : Option (List Char)} (hen : ∀ p ∈ en, ∀ c ∈ p, isContent c = false)
    (hem : ∀ p ∈ em, ∀ c ∈ p, isContent c = false) (s : List Char) :
    (fold en em s).filter isContent = s.filter isContent := by
  have hnil : ∀ l : List Char, (∀ c ∈ l, isContent c = false) → l.filter isContent = [] := by
    intro l h
    rw [List.filter_eq_nil_iff]
    intro c hc
    simp [h c hc]
  have one : ∀ c, (foldChar en em c).filter isContent = [c].filter isContent := by
    intro c
    unfold foldChar
    split
    · rename_i h
      rcases h with rfl | rfl <;> decide
    · split
      · rename_i h
        rcases h with rfl | rfl <;> decide
      · split
        · rename_i h; subst h; decide
        · split
          · rename_i h
            subst h
            cases en with
            | none => rfl
            | some p =>
              rw [Option.getD_some, hnil p (hen p rfl)]
              decide
          · split
            · rename_i h
              subst h
              cases em with
              | none => rfl
              | some p =>
                rw [Option.getD_some, hnil p (hem p rfl)]
                decide
            · rfl
  unfold fold
  induction s with
  | nil => rfl
  | cons c s ih =>
    rw [List.flatMap_cons, List.filter_append, one, ih, ← List.filter_append]
    rfl

theorem escapeTextGo_content : ∀ (s : List Char) (prev : Option Char),
    (escapeTextGo prev s).filter isContent = s.filter isContent
  | [], _ => rfl
  | c :: s, prev => by
    rw [escapeTextGo]
    have hb : isContent '\\' = false := by decide
    split
    · rw [List.filter_cons_of_neg (by simp [hb]), List.filter_cons, List.filter_cons, escapeTextGo_content s]
    · rw [List.filter_cons, List.filter_cons, escapeTextGo_content s]

theorem escapeChar_content (c : Char) : (escapeChar c).filter isContent = [c].filter isContent :=
  escapeTextGo_content [c] none

theorem flatMap_escapeChar_content (s : List Char) : (s.flatMap escapeChar).filter isContent = s.filter isContent := by
  induction s with
  | nil => rfl
  | cons c s ih =>
    rw [List.flatMap_cons, List.filter_append, escapeChar_content, ih, ← List.filter_append]
    rfl

theorem escapeSrcGo_content (named : List Char → Option Char) : ∀ (k : Nat) (text src : List Char), '&' ∉ src →
    (escapeSrcGo named k text src).filter isContent = text.filter isContent
  | 0, text, src, _ => by rw [escapeSrcGo]; exact flatMap_escapeChar_content text
  | k + 1, [], src, _ => by rw [escapeSrcGo]
  | k + 1, t :: ts, [], _ => by rw [escapeSrcGo]; exact flatMap_escapeChar_content (t :: ts)
  | k + 1, t :: ts, s :: ss, h => by
    have hss : '&' ∉ ss := fun hm => h (by simp [hm])
    have htl : '&' ∉ ss.tail := fun hm => hss (List.mem_of_mem_tail hm)
    have hb : isContent '\\' = false := by decide
    have step : ∀ r, '&' ∉ r → (escapeChar t ++ escapeSrcGo named k ts r).filter isContent = (t :: ts).filter isContent := by
      intro r hr
      rw [List.filter_append, escapeChar_content, escapeSrcGo_content named k ts r hr, ← List.filter_append]
      rfl
    have hbs : ∀ (x : Char) (l : List Char), ('\\' :: x :: l).filter isContent = (x :: l).filter isContent := by
      intro x l
      rw [List.filter_cons_of_neg (by simp [hb])]
    rw [escapeSrcGo]
    split
    · split
      · rename_i ht
        split
        · rw [hbs, ht, List.filter_cons, List.filter_cons, escapeSrcGo_content named k ts _ htl]
        · exact step ss hss
      · split
        · split
          · rw [List.cons_append, List.cons_append, List.nil_append, hbs, List.filter_cons, List.filter_cons,
              escapeSrcGo_content named k ts _ htl]
          · rw [List.cons_append, List.cons_append, List.cons_append, List.nil_append, hbs, hbs, List.filter_cons, List.filter_cons,
              escapeSrcGo_content named k ts _ htl]
        · exact step (s :: ss) h
    · rw [if_neg (by rintro rfl; exact h (by simp))]
      split
      · exact step ss hss
      · exact escapeSrcGo_content named k (t :: ts) ss hss

/-- The dash patterns have no letters. -/
def PatternsOk (o : PunctOpts) : Prop :=
  (∀ p ∈ o.enDash, Props.ValidPattern p ∧ ∀ c ∈ p, isContent c = false) ∧
  ∀ p ∈ o.emDash, Props.ValidPattern p ∧ ∀ c ∈ p, isContent c = false

theorem transform_content (u : Uni) {o : PunctOpts} (h : PatternsOk o) (s : List Char) :
    (transformPunctuation u o s).filter isContent = s.filter isContent := by
  have e := Props.c10_punctuation_fold u o (fun p hp => (h.1 p hp).1) (fun p hp => (h.2 p hp).1) s
  rw [← filter_content_fold (fun p hp => (h.1 p hp).2) (fun p hp => (h.2 p hp).2), e,
    filter_content_fold (fun p hp => (h.1 p hp).2) (fun p hp => (h.2 p hp).2)]

theorem textNode_content {cx : Cx} (h : PatternsOk cx.opts.punct) (t : List Char) (p : Pos)
    (hs : ∀ src, extractSource cx p = some src → '&' ∉ src) : (textNode cx t p).filter isContent = t.filter isContent := by
  unfold textNode
  cases he : extractSource cx p with
  | none =>
    show (escapeText _).filter isContent = _
    rw [escapeText, escapeTextGo_content, transform_content _ h]
  | some src =>
    show (escapeTextPreservingSource _ _ _).filter isContent = _
    rw [escapeTextPreservingSource, escapeSrcGo_content _ _ _ _ (hs src he), transform_content _ h]

theorem formatCodeSpan_infix (t : List Char) : t <:+: formatCodeSpan t := by
  unfold formatCodeSpan
  simp only []
  generalize List.replicate _ '`' = d
  generalize (if t = [] then false else _) = b
  cases b
  · exact ⟨d, d, rfl⟩
  · exact ⟨d ++ [' '], [' '] ++ d, by simp⟩

theorem codeNode_content {cx : Cx} (t : List Char) (p : Pos)
    (hs : ∀ src, extractSource cx p = some src → (t.filter isContent).Sublist src) :
    (t.filter isContent).Sublist (codeNode cx t p) := by
  have h1 : (t.filter isContent).Sublist (formatCodeSpan t) :=
    List.filter_sublist.trans (formatCodeSpan_infix t).sublist
  unfold codeNode
  split
  · rename_i src he
    split
    · exact hs src he
    · exact h1
  · exact h1

mutual
theorem rawText_content : ∀ n : Node, onlyText n = true → (rawText n).filter isContent = contentOf n
  | .mk v p cs, h => by
    unfold onlyText at h
    rw [Bool.and_eq_true] at h
    cases v with
    | text t => rw [rawText, contentOf]
    | emph => simpa [rawText, contentOf] using rawTexts_content cs h.2
    | strong => simpa [rawText, contentOf] using rawTexts_content cs h.2
    | softBreak =>
      have : cs = [] := by simpa using h.1
      subst this
      rfl
    | _ => exact absurd h.1 (by simp)

theorem rawTexts_content : ∀ cs : List Node, onlyTexts cs = true → (rawTexts cs).filter isContent = contentsOf cs
  | [], _ => rfl
  | n :: ns, h => by
    rw [onlyTexts, Bool.and_eq_true] at h
    rw [rawTexts, contentsOf, List.filter_append, rawText_content n h.1, rawTexts_content ns h.2]
end

theorem softToSpace_sub {a s : List Char} (ha : ∀ c ∈ a, c ≠ '\x00') (h : a.Sublist s) : a.Sublist (softToSpace s) := by
  have := h.map fun c : Char => if c = '\x00' then ' ' else c
  have e : a.map (fun c : Char => if c = '\x00' then ' ' else c) = a := by
    conv => rhs; rw [← List.map_id a]
    apply List.map_congr_left
    intro c hc
    rw [if_neg (ha c hc)]; rfl
  rw [e] at this
  exact this

mutual
theorem content_mem : ∀ (n : Node) (c : Char), c ∈ contentOf n → isContent c = true
  | .mk v p cs, c, h => by
    cases v with
    | text t => rw [contentOf] at h; exact (List.mem_filter.1 h).2
    | code t => rw [contentOf] at h; exact (List.mem_filter.1 h).2
    | _ => exact contents_mem cs c (by simpa [contentOf] using h)

theorem contents_mem : ∀ (cs : List Node) (c : Char), c ∈ contentsOf cs → isContent c = true
  | [], c, h => by simp [contentsOf] at h
  | n :: ns, c, h => by
    rw [contentsOf, List.mem_append] at h
    rcases h with h | h
    · exact content_mem n c h
    · exact contents_mem ns c h
end

theorem formatReference_text (bang text label url title : List Char) :
    text <:+: (formatReference bang text label url title).1 := by
  unfold formatReference
  split
  · exact ⟨bang ++ ['['], _, rfl⟩
  · split
    · exact ⟨bang ++ ['['], _, rfl⟩
    · exact ⟨bang ++ ['['], [']', '['] ++ label ++ [']'], by simp⟩

mutual
theorem collectText_content {cx : Cx} (h : PatternsOk cx.opts.punct) : ∀ n : Node, KeptInline cx n →
    (contentOf n).Sublist (collectText cx n).1
  | .mk v p cs, hk => by
    cases v with
    | text t =>
      rw [KeptInline] at hk
      rw [collectText, contentOf, ← textNode_content h t p hk.2]
      exact List.filter_sublist
    | code t =>
      rw [KeptInline] at hk
      rw [collectText, contentOf]
      exact codeNode_content t p hk.2
    | softBreak =>
      rw [KeptInline] at hk
      simp [contentOf, hk, contentsOf]
    | emph =>
      rw [KeptInline] at hk
      have := collectTexts_content h cs hk
      simp only [collectText, contentOf]
      exact this.trans ((List.sublist_append_right _ _).trans (List.sublist_append_left _ _))
    | strong =>
      rw [KeptInline] at hk
      have := collectTexts_content h cs hk
      simp only [collectText, contentOf]
      exact this.trans ((List.sublist_append_right _ _).trans (List.sublist_append_left _ _))
    | link url title =>
      rw [KeptInline] at hk
      have hr : (contentsOf cs).Sublist (rawTexts cs) := by
        rw [← rawTexts_content cs hk.1]
        exact List.filter_sublist
      have hc : contentOf (.mk (.link url title) p cs) = contentsOf cs := by simp [contentOf]
      rw [hc]
      simp only [collectText]
      split
      · rename_i text label he
        exact (hk.2 text label he).trans (formatReference_text _ _ _ _ _).sublist
      · split
        · refine (softToSpace_sub ?_ hr).trans ?_
          · rintro c hm rfl
            exact absurd (contents_mem cs _ hm) (by decide)
          · simp only [formatExternalLink]
            exact (List.IsInfix.sublist ⟨['['], _, by rw [List.append_assoc ([ '['] ++ _)]⟩)
        · refine hr.trans (List.IsInfix.sublist ⟨['['], [']', '('] ++ url ++ titlePart title ++ [')'], ?_⟩)
          simp [formatInlineLink]
    | image url title =>
      rw [KeptInline] at hk
      have hr : (contentsOf cs).Sublist (rawTexts cs) := by
        rw [← rawTexts_content cs hk]
        exact List.filter_sublist
      have hc : contentOf (.mk (.image url title) p cs) = contentsOf cs := by simp [contentOf]
      rw [hc]
      simp only [collectText]
      refine hr.trans (List.IsInfix.sublist ⟨['!', '['], [']', '('] ++ url ++ titlePart title ++ [')'], ?_⟩)
      simp [formatInlineLink]
    | _ => exact absurd hk (by simp [KeptInline])

theorem collectTexts_content {cx : Cx} (h : PatternsOk cx.opts.punct) : ∀ cs : List Node, KeptInlines cx cs →
    (contentsOf cs).Sublist (collectTexts cx cs).1
  | [], _ => by simp [contentsOf]
  | n :: ns, hk => by
    rw [KeptInlines] at hk
    rw [contentsOf, collectTexts]
    exact (collectText_content h n hk.1).append (collectTexts_content h ns hk.2)
end

mutual
theorem collectText_case (cx : Cx) (b : Bool) : ∀ n : Node,
    collectText { cx with opts := { cx.opts with headingSentenceCase := b } } n = collectText cx n
  | .mk v p cs => by
    have ih := collectTexts_case cx b cs
    cases v <;> simp only [collectText, ih] <;> rfl

theorem collectTexts_case (cx : Cx) (b : Bool) : ∀ cs : List Node,
    collectTexts { cx with opts := { cx.opts with headingSentenceCase := b } } cs = collectTexts cx cs
  | [] => rfl
  | n :: ns => by rw [collectTexts, collectTexts, collectText_case cx b n, collectTexts_case cx b ns]
end

end Hongdown
