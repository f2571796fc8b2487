import Verif.Lemmas.Core
import Verif.Lemmas.WrapLines

/-!
# Reading back the core of Markdown
-/

namespace Hongdown.Model
open Spec

/-! ### Words of lines -/

theorem textLine_words {l : List Char} (h : TextLine l) : words l = splitOn ' ' l :=
  words_clean (textLine_clean h) (textLine_not_mem h _ (by decide) (by decide))

theorem joinLines_no {ls : List (List Char)} (h : ∀ l ∈ ls, TextLine l) {sep : List Char} {d : Char} (hd : rawChar d = false) (hs : d ≠ ' ')
    (hsep : d ∉ sep) : d ∉ joinWith sep ls := by
  intro hm
  rcases mem_joinWith hm with hm | ⟨l, hl, hm⟩
  · exact hsep hm
  · exact textLine_not_mem (h l hl) d hd hs hm

theorem textLine_joinSpace {ls : List (List Char)} (h0 : ls ≠ []) (h : ∀ l ∈ ls, TextLine l) :
    TextLine (joinWith [' '] ls) ∧ splitOn ' ' (joinWith [' '] ls) = lineWords ls := by
  have e : splitOn ' ' (joinWith [' '] ls) = lineWords ls := splitOn_join_flat h0
  refine ⟨?_, e⟩
  unfold TextLine
  rw [e]
  intro w hw
  obtain ⟨l, hl, hw⟩ := List.mem_flatMap.1 hw
  exact h l hl w hw

/-! ### Content and lines -/

theorem lines_ends : ∀ {ls : List (List Char)}, EndsOutside (joinWith ['\n'] ls) → CutOk (joinWith ['\n'] ls) → ∀ l ∈ ls, EndsOutside l
  | [], _, _, l, hl => by cases hl
  | [x], h, _, l, hl => by rw [List.mem_singleton.1 hl]; exact h
  | x :: y :: ls, h, hc, l, hl => by
    rw [joinWith_cons _ _ (by simp), List.append_assoc, List.singleton_append] at h hc
    have hx := hc x _ rfl
    have hxn : EndsOutside (x ++ ['\n']) := by rw [ends_append hx]; decide
    have e : x ++ '\n' :: joinWith ['\n'] (y :: ls) = (x ++ ['\n']) ++ joinWith ['\n'] (y :: ls) := by simp
    rw [e] at h hc
    rcases List.mem_cons.1 hl with rfl | hl
    · exact hx
    · exact lines_ends ((ends_append hxn).1 h) (cutOk_right hc hxn) l hl

theorem cutOk_lines : ∀ {ls : List (List Char)}, (∀ l ∈ ls, '\n' ∉ l) → (∀ l ∈ ls, EndsOutside l) → CutOk (joinWith ['\n'] ls)
  | [], _, _ => cutOk_of_not_mem (by simp [joinWith])
  | [x], h, _ => cutOk_of_not_mem (h x (by simp))
  | x :: y :: ls, h, he => by
    rw [joinWith_cons _ _ (by simp)]
    have hx := he x (by simp)
    have hxn : EndsOutside (x ++ ['\n']) := by rw [ends_append hx]; decide
    refine cutOk_append (cutOk_append (cutOk_of_not_mem (h x (by simp))) hx ?_) hxn
      (cutOk_lines (fun l hl => h l (by simp only [List.mem_cons] at hl ⊢; exact .inr hl))
        (fun l hl => he l (by simp only [List.mem_cons] at hl ⊢; exact .inr hl)))
    intro a b e
    cases a with
    | nil => exact ends_nil
    | cons c a => simp at e

theorem content_ends {ls : List (List Char)} {a : List Run} (h : ContentReads ls a) : ∀ l ∈ ls, EndsOutside l := by
  have := runs_cut h.2
  rw [h.1] at this
  exact lines_ends this.1 this.2

/-- Breaking lines elsewhere, but not in code spans, keeps the content. -/
theorem content_moved {ls ms : List (List Char)} {a : List Run} (h : ContentReads ls a) (hl : ∀ l ∈ ls, '\n' ∉ l) (hm : ∀ m ∈ ms, '\n' ∉ m)
    (he : ∀ m ∈ ms, EndsOutside m) (hj : joinWith [' '] ms = joinWith [' '] ls) :
    ∃ b, ContentReads ms b ∧ a.map flatRun = b.map flatRun := by
  have hf : (softChar ' ') = flatChar := by funext c; rfl
  have e : (joinWith ['\n'] ms).map flatChar = (runsText a).map flatChar := by
    rw [h.1, ← hf, map_joinWith_soft _ _ hm, map_joinWith_soft _ _ hl, hj]
  obtain ⟨b, e1, e2⟩ := cut_runs h.2 e (cutOk_lines hm he)
  exact ⟨b, ⟨e1, runsOk_of_flat e2.symm h.2⟩, e2.symm⟩

theorem sameContent_moved {ls ms : List (List Char)} (h : ∃ a, ContentReads ls a) (hl : ∀ l ∈ ls, '\n' ∉ l) (hm : ∀ m ∈ ms, '\n' ∉ m)
    (he : (∀ l ∈ ls, EndsOutside l) → ∀ m ∈ ms, EndsOutside m) (hj : joinWith [' '] ms = joinWith [' '] ls) :
    SameContent ls ms ∧ ∃ b, ContentReads ms b := by
  obtain ⟨a, ha⟩ := h
  obtain ⟨b, hb, e⟩ := content_moved ha hl hm (he (content_ends ha)) hj
  exact ⟨⟨a, b, ha, hb, e⟩, b, hb⟩

/-- Wrapping text. -/
theorem wrapSegment_plain (w : List Char → Nat) (fp p : List Char) (lw : Nat) {ls : List (List Char)} (h0 : ls ≠ [])
    (h : ∀ l ∈ ls, TextLine l) (ha : ∃ a, ContentReads ls a) :
    ∃ ms : List (List Char), ms ≠ [] ∧ (∀ m ∈ ms, TextLine m) ∧ lineWords ms = lineWords ls ∧ SameContent ls ms ∧ (∃ b, ContentReads ms b) ∧
      wrapSegment w (joinWith ['\x00'] ls) fp p lw = joinWith ['\n'] (layout fp p ms) ∧
      wrapSegment w (joinWith ['\x00'] ms) fp p lw = joinWith ['\n'] (layout fp p ms) := by
  obtain ⟨ms, m0, mc, mj, e1, e2, e3⟩ := wrapSegment_first w fp p lw h0 (fun l hl => textLine_clean (h l hl))
    (fun l hl => textLine_not_mem (h l hl) _ (by decide) (by decide))
  have hw := textLine_joinSpace h0 h
  have hmt : ∀ m ∈ ms, TextLine m := by
    intro m hm v hv
    apply hw.1
    rw [← mj]
    obtain ⟨a, b, rfl⟩ := List.append_of_mem hm
    rw [splitOn_join_flat (by simp)]
    simp only [List.flatMap_append, List.flatMap_cons, List.mem_append]
    exact .inr (.inl hv)
  obtain ⟨hs, hb⟩ := sameContent_moved ha (fun l hl => textLine_nl (h l hl)) (fun m hm => textLine_nl (hmt m hm)) e3 mj
  refine ⟨ms, m0, hmt, ?_, hs, hb, e1, e2⟩
  have := textLine_joinSpace m0 hmt
  rw [← this.2, ← hw.2, mj]

/-- Wrapping the text of a paragraph at the top level. -/
theorem wrap_plain (w : List Char → Nat) (lw : Nat) {ls : List (List Char)} (h0 : ls ≠ []) (h : ∀ l ∈ ls, TextLine l)
    (ha : ∃ a, ContentReads ls a) :
    ∃ ms : List (List Char), ms ≠ [] ∧ (∀ m ∈ ms, TextLine m) ∧ lineWords ms = lineWords ls ∧ SameContent ls ms ∧ (∃ b, ContentReads ms b) ∧
      wrapText w (joinWith ['\x00'] ls) [] lw = joinWith ['\n'] ms ∧
      wrapText w (joinWith ['\x00'] ms) [] lw = joinWith ['\n'] ms := by
  have one : ∀ text : List Char, '\n' ∉ text → wrapText w text [] lw = wrapSegment w text [] [] lw := by
    intro text ht
    rw [wrapText, splitOn_of_not_mem ht]; rfl
  obtain ⟨ms, m0, mt, hw, hs, hb, e1, e2⟩ := wrapSegment_plain w [] [] lw h0 h ha
  rw [layout_same] at e1 e2
  simp only [List.nil_append, List.map_id'] at e1 e2
  refine ⟨ms, m0, mt, hw, hs, hb, ?_, ?_⟩
  · rw [one _ (joinLines_no h (by decide) (by decide) (by decide)), e1]
  · rw [one _ (joinLines_no mt (by decide) (by decide) (by decide)), e2]

/-! ### Kinds of lines -/

theorem textLine_letter {l : List Char} (h : TextLine l) : ∃ c ∈ l, letterLike c = true := by
  cases hs : splitOn ' ' l with
  | nil => exact absurd hs (splitOn_ne_nil _ _)
  | cons w r =>
    have hw : w ∈ splitOn ' ' l := by rw [hs]; simp
    obtain ⟨c, hc, hl⟩ := (h w hw).2.1
    exact ⟨c, mem_splitOn_subset hw hc, hl⟩

theorem not_blank_line {l : List Char} {c : Char} (hc : c ∈ l) (hb : blankChar c = false) : l.all blankChar = false := by
  rw [List.all_eq_false]; exact ⟨c, hc, by simp [hb]⟩

theorem not_rule_line {l : List Char} {c : Char} (hc : c ∈ l) (hb : blankChar c = false) (h : c ∉ [('*' : Char), '-', '_']) :
    isRule l = false := by
  unfold isRule
  rw [Bool.and_eq_false_iff]
  right
  rw [List.any_eq_false]
  intro m hm
  simp only [Bool.and_eq_true, not_and, decide_eq_true_eq, List.all_eq_true, and_imp]
  intro _ hall
  have := hall c hc
  simp only [Bool.or_eq_true, decide_eq_true_eq, hb, Bool.false_eq_true, or_false] at this
  exact absurd (this ▸ hm) h

theorem letter_not_blank {c : Char} (h : letterLike c = true) : blankChar c = false := by
  cases hb : blankChar c with
  | false => rfl
  | true =>
    unfold blankChar at hb
    simp only [Bool.or_eq_true, decide_eq_true_eq] at hb
    rcases hb with rfl | rfl <;> exact absurd h (by decide)

theorem letter_not_marker {c : Char} (h : letterLike c = true) : c ∉ [('*' : Char), '-', '_', '='] := by
  intro hm
  exact absurd h (by simpa using (show ∀ c ∈ [('*' : Char), '-', '_', '='], ¬ letterLike c = true by decide) c hm)

theorem lineKind_text {l : List Char} (h : TextLine l) : lineKind l = .text := by
  obtain ⟨c, hc, hl⟩ := textLine_letter h
  have hm := letter_not_marker hl
  rw [lineKind, if_neg (by rw [not_blank_line hc (letter_not_blank hl)]; simp),
    if_neg (by rw [not_rule_line hc (letter_not_blank hl) (by simp at hm ⊢; exact ⟨hm.1, hm.2.1, hm.2.2.1⟩)]; simp), if_pos h]

theorem underline_text {l : List Char} (h : TextLine l) : underline l = none := by
  obtain ⟨c, hc, hl⟩ := textLine_letter h
  have hm := letter_not_marker hl
  unfold underline
  rw [if_neg, if_neg]
  · rintro ⟨_, ha⟩
    have := List.all_eq_true.1 ha c hc
    simp at this hm
    exact hm.2.1 this
  · rintro ⟨_, ha⟩
    have := List.all_eq_true.1 ha c hc
    simp at this hm
    exact hm.2.2.2 this

theorem lineKind_blank : lineKind [] = .blank := rfl

theorem underline_nil : underline [] = none := by decide

theorem readLines_blank (rest : List (List Char)) : readLines .none ([] :: rest) = readLines .none rest := by
  rw [readLines, lineKind_blank]

theorem lineKind_rule {l : List Char} (h : isRule l = true) : lineKind l = .rule := by
  have hb : l.all blankChar = false := by
    unfold isRule at h
    rw [Bool.and_eq_true, List.any_eq_true] at h
    obtain ⟨m, hm, h⟩ := h.2
    simp only [Bool.and_eq_true, decide_eq_true_eq] at h
    have : m ∈ l := (List.dropWhile_suffix _).subset (List.mem_of_head? h.1.1)
    refine not_blank_line this ?_
    exact (show ∀ m ∈ [('*' : Char), '-', '_'], blankChar m = false by decide) m hm
  rw [lineKind, if_neg (by rw [hb]; simp), if_pos h]

theorem rule_chars {l : List Char} (h : isRule l = true) {c : Char} (hc : c ∈ l) : c ∈ [('*' : Char), '-', '_', ' ', '\t'] := by
  unfold isRule at h
  rw [Bool.and_eq_true, List.any_eq_true] at h
  obtain ⟨m, hm, h⟩ := h.2
  simp only [Bool.and_eq_true, decide_eq_true_eq, List.all_eq_true] at h
  have := h.1.2 c hc
  simp only [Bool.or_eq_true, decide_eq_true_eq, blankChar] at this
  simp at hm ⊢
  rcases this with rfl | rfl | rfl
  · rcases hm with rfl | rfl | rfl <;> simp
  · simp
  · simp

theorem lineKind_atx {t : List Char} (h : TextLine t) {level : Nat} (h1 : 1 ≤ level) (h6 : level ≤ 6) :
    lineKind (List.replicate level '#' ++ [' '] ++ t) = .heading level t := by
  obtain ⟨k, rfl⟩ : ∃ k, level = k + 1 := ⟨level - 1, by omega⟩
  have hm : '#' ∈ List.replicate (k + 1) '#' ++ [' '] ++ t := by simp [List.replicate_succ]
  have hnb : ∀ {c : Char}, rawChar c = true → blankChar c = false := by
    intro c hc
    cases hb : blankChar c with
    | false => rfl
    | true =>
      unfold blankChar at hb
      simp only [Bool.or_eq_true, decide_eq_true_eq] at hb
      rcases hb with rfl | rfl <;> exact absurd hc (by decide)
  have ha : atxLine (List.replicate (k + 1) '#' ++ [' '] ++ t) = some (k + 1, t) :=
    atxLine_of (fun c hc => hnb (textLine_head h c hc))
      (fun c hc => ⟨fun e => (textLine_hash h).2 (e ▸ hc), hnb (textLine_last h c hc)⟩) h1 h6
  rw [lineKind, if_neg (by rw [not_blank_line hm (by decide)]; simp), if_neg (by rw [not_rule_line hm (by decide) (by decide)]; simp),
    if_neg (fun ht => (textLine_hash ht).1 (by simp [List.replicate_succ])), ha]
  simp [h]

/-- The characters of an info string. -/
def InfoPlain (s : List Char) : Prop := ∀ c ∈ s, c ≠ '\n' ∧ c ≠ '\r' ∧ c ≠ '\x00' ∧ c ≠ '\\' ∧ c ≠ '&'

theorem shownInfo_plain {d info : List Char} (hd : InfoPlain d) (hi : InfoPlain info) : InfoPlain (shownInfo d info) := by
  unfold shownInfo
  split
  · exact hd
  · exact fun c hc => hi c (trim_subset hc)

theorem lineKind_fence {cx : Cx} {info : List Char} (hfc : cx.opts.fenceChar = '`' ∨ cx.opts.fenceChar = '~')
    (hi : InfoOk cx info) (hs : strip (shownInfo cx.opts.defaultLanguage info) = shownInfo cx.opts.defaultLanguage info)
    (hp : InfoPlain (shownInfo cx.opts.defaultLanguage info)) {n : Nat} (hn : 3 ≤ n) :
    lineKind (List.replicate n cx.opts.fenceChar ++ infoPart cx info) =
      .fence ⟨cx.opts.fenceChar, n, shownInfo cx.opts.defaultLanguage info⟩ := by
  have hro := readOpening_code hfc hi hn
  rw [hs] at hro
  obtain ⟨k, rfl⟩ : ∃ k, n = k + 1 := ⟨n - 1, by omega⟩
  have hhead : (List.replicate (k + 1) cx.opts.fenceChar ++ infoPart cx info).head? = some cx.opts.fenceChar := by
    simp [List.replicate_succ]
  have hm := List.mem_of_head? hhead
  have ha : atxLine (List.replicate (k + 1) cx.opts.fenceChar ++ infoPart cx info) = none := by
    unfold atxLine
    have : (List.replicate (k + 1) cx.opts.fenceChar ++ infoPart cx info).takeWhile (fun c => decide (c = '#')) = [] := by
      rw [List.replicate_succ, List.cons_append, List.takeWhile_cons_of_neg]
      rcases hfc with h | h <;> rw [h] <;> decide
    simp only [this]
    simp
  have p1 : blankChar cx.opts.fenceChar = false := by rcases hfc with h | h <;> rw [h] <;> decide
  have p2 : cx.opts.fenceChar ∉ [('*' : Char), '-', '_'] := by rcases hfc with h | h <;> rw [h] <;> decide
  have p3 : ¬ TextLine (List.replicate (k + 1) cx.opts.fenceChar ++ infoPart cx info) := by
    intro ht
    rcases hfc with h | h
    · have hi : ['`', '`'] <:+: List.replicate (k + 1) cx.opts.fenceChar ++ infoPart cx info := by
        obtain ⟨j, rfl⟩ : ∃ j, k = j + 1 := ⟨k - 1, by omega⟩
        refine ⟨[], List.replicate j '`' ++ infoPart cx info, ?_⟩
        rw [h]; simp [List.replicate_succ]
      rw [← join_splitOn ' ' (List.replicate (k + 1) cx.opts.fenceChar ++ infoPart cx info)] at hi
      obtain ⟨w, hw, hi⟩ := infix_word (by decide) (by decide) _ hi
      exact (ht w hw).2.2.2.1 hi
    · exact textLine_not_mem ht '~' (by decide) (by decide) (h ▸ hm)
  rw [lineKind, if_neg (by rw [not_blank_line hm p1]; simp), if_neg (by rw [not_rule_line hm p1 p2]; simp),
    if_neg p3, ha]
  simp only [hro]
  rw [if_pos ⟨hhead, fun h => (hp _ h).2.2.2.1 rfl, fun h => (hp _ h).2.2.2.2 rfl⟩]

theorem shownInfo_twice {d : List Char} (hd : trim d = d) (info : List Char) : shownInfo d (shownInfo d info) = shownInfo d info := by
  by_cases h : trim info = []
  · have : shownInfo d info = d := by simp [shownInfo, h]
    rw [this]
    unfold shownInfo
    split
    · rfl
    · exact hd
  · have : shownInfo d info = trim info := by simp [shownInfo, h]
    rw [this]
    unfold shownInfo
    rw [trim_trim, if_neg h]

theorem readLines_code {f : Fence} : ∀ (ls acc : List (List Char)), (∀ l ∈ ls, isClosing f.char f.length l = false) →
    ∀ {cl : List Char}, isClosing f.char f.length cl = true → ∀ rest,
      readLines (.code f acc) (ls ++ cl :: rest) = (readLines .none rest).map (.code f.info (acc ++ ls) :: ·)
  | [], acc, _, cl, hc, rest => by rw [List.nil_append, readLines, if_pos hc, List.append_nil]
  | l :: ls, acc, h, cl, hc, rest => by
    rw [List.cons_append, readLines, if_neg (by rw [h l (by simp)]; simp),
      readLines_code ls (acc ++ [l]) (fun x hx => h x (by simp [hx])) hc rest]
    simp

theorem readLines_text : ∀ (ms acc : List (List Char)), (∀ m ∈ ms, TextLine m) → ∀ rest,
    readLines (.paragraph acc) (ms ++ rest) = readLines (.paragraph (acc ++ ms)) rest
  | [], acc, _, rest => by simp
  | m :: ms, acc, h, rest => by
    have hm := h m (by simp)
    rw [List.cons_append, readLines, underline_text hm]
    simp only [lineKind_text hm]
    rw [readLines_text ms (acc ++ [m]) (fun x hx => h x (by simp [hx])) rest]
    simp

/-! ### Blocks are read back -/

/-- A line that a block other than a list starts with. -/
def BlockStart (l : List Char) : Prop := ∀ k, lineKind l = k → k ≠ .blank ∧ k ≠ .other

/-- Blank lines have no tabs. -/
def NoTabs (ls : List (List Char)) : Prop := ∀ l ∈ ls, l.all blankChar = true → '\t' ∉ l

/-- What is known of the lines that are written for a block, and of the block that is read back. -/
structure Written (cx : Cx) (b b' : CoreBlock) (L : List (List Char)) : Prop where
  text : coreText cx b = unlines L
  same : SameBlock cx.opts.defaultLanguage b b'
  fit : WidthOk cx.width → FitsTree (FitsOrWord cx.width cx.opts.lineWidth) 0 0 (.leaf false b')
  keep : WidthOk cx.width → FitsTree (Fits cx.width cx.opts.lineWidth) 0 0 (.leaf false b) → paragraphLines [b'] = paragraphLines [b]
  again : coreText cx b' = coreText cx b
  level : coreLevel b' = coreLevel b
  valid : CoreValid b'
  chars : ∀ l ∈ L, '\n' ∉ l ∧ '\r' ∉ l ∧ '\x00' ∉ l
  ne : L ≠ []
  first : L.head? ≠ some ['-', '-', '-']
  reads : ∀ rest, readLines .none (L ++ [] :: rest) = (readLines .none rest).map (b' :: ·)
  start : ∀ l ∈ L.head?, BlockStart l
  tabs : (∀ info ls, b = .code info ls → NoTabs ls) → NoTabs L
  last : ∀ l ∈ L.getLast?, l ≠ []

theorem textLine_chars {l : List Char} (h : TextLine l) : '\n' ∉ l ∧ '\r' ∉ l ∧ '\x00' ∉ l :=
  ⟨textLine_not_mem h _ (by decide) (by decide), textLine_not_mem h _ (by decide) (by decide),
    textLine_not_mem h _ (by decide) (by decide)⟩

theorem textLine_ne_rule {l : List Char} (h : TextLine l) : l ≠ ['-', '-', '-'] := by
  rintro rfl
  exact absurd h (by decide +kernel)

theorem unlines_joinWith : ∀ (ms : List (List Char)), ms ≠ [] → joinWith ['\n'] ms ++ ['\n'] = unlines ms
  | [], h => absurd rfl h
  | [m], _ => by simp [joinWith, unlines]
  | m :: n :: ms, _ => by
    have := unlines_joinWith (n :: ms) (by simp)
    rw [joinWith_cons _ _ (by simp), List.append_assoc, this]
    simp [unlines]

theorem blockStart_text {l : List Char} (h : TextLine l) : BlockStart l := by
  intro k hk
  rw [lineKind_text h] at hk
  rw [← hk]; simp

theorem noTabs_of {L : List (List Char)} (h : ∀ l ∈ L, l ≠ [] ∧ '\t' ∉ l) : NoTabs L := fun l hl _ => (h l hl).2

theorem textLine_noTab {l : List Char} (h : TextLine l) : '\t' ∉ l := textLine_not_mem h _ (by decide) (by decide)

theorem written_paragraph (cx : Cx) {ls : List (List Char)} (hv : CoreValid (.paragraph ls)) :
    ∃ b' L, Written cx (.paragraph ls) b' L := by
  obtain ⟨ms, m0, mt, hw, hsame, hb, e1, e2⟩ := wrap_plain cx.width cx.opts.lineWidth hv.1 hv.2.1 hv.2.2
  have e3 : wrapSegment cx.width (joinWith ['\x00'] ls) [] (spaces 0) cx.opts.lineWidth = joinWith ['\n'] (layout [] (spaces 0) ms) := by
    have := e1
    rw [wrapText, splitOn_of_not_mem (joinLines_no hv.2.1 (by decide) (by decide) (by decide))] at this
    rw [show layout [] (spaces 0) ms = ms by cases ms <;> simp [layout, spaces], ← this]; rfl
  refine ⟨.paragraph ms, ms, ?_, ⟨hw.symm, hsame⟩, fun hwo => ?_, fun hwo hfit => ?_, ?_, rfl, ⟨m0, mt, hb⟩, fun l hl => textLine_chars (mt l hl), m0, ?_, ?_, ?_, ?_, ?_⟩
  · rw [coreText, e1, unlines_joinWith ms m0]
  · rw [FitsTree]
    exact parFits_of hwo 0 _ hv.1 hv.2.1 mt e3
  · rw [FitsTree] at hfit
    have e4 := wrapSegment_keep hwo 0 hv.1 hv.2.1 hfit
    rw [e3] at e4
    rw [layout_inj (by simp [spaces]) m0 hv.1 mt hv.2.1 e4]
  · rw [coreText, coreText, e1, e2]
  · intro e
    exact textLine_ne_rule (mt _ (List.mem_of_head? e)) rfl
  · intro rest
    cases ms with
    | nil => exact absurd rfl m0
    | cons m ms =>
      rw [List.cons_append, readLines, lineKind_text (mt m (by simp))]
      simp only
      rw [readLines_text ms [m] (fun x hx => mt x (by simp [hx])), readLines, underline_nil]
      simp only [lineKind_blank]
      rfl
  · intro l hl
    exact blockStart_text (mt l (List.mem_of_head? hl))
  · exact fun _ l hl _ => textLine_noTab (mt l hl)
  · exact fun l hl => textLine_ne_nil (mt l (List.mem_of_getLast? hl))

theorem underline_replicate {n : Nat} (hn : 0 < n) : underline (List.replicate n '=') = some 1 ∧ underline (List.replicate n '-') = some 2 := by
  obtain ⟨k, rfl⟩ : ∃ k, n = k + 1 := ⟨n - 1, by omega⟩
  unfold underline
  refine ⟨?_, ?_⟩
  · rw [if_pos]; simp
  · rw [if_neg, if_pos] <;> simp

theorem replicate_chars (n : Nat) {c : Char} (hc : c ≠ '\n' ∧ c ≠ '\r' ∧ c ≠ '\x00') :
    '\n' ∉ List.replicate n c ∧ '\r' ∉ List.replicate n c ∧ '\x00' ∉ List.replicate n c :=
  ⟨fun h => hc.1 (List.eq_of_mem_replicate h).symm, fun h => hc.2.1 (List.eq_of_mem_replicate h).symm,
    fun h => hc.2.2 (List.eq_of_mem_replicate h).symm⟩

theorem setext_read {t : List Char} (ht : TextLine t) {u : List Char} {level : Nat} (hu : underline u = some level)
    (rest : List (List Char)) :
    readLines .none ([t, u] ++ [] :: rest) = (readLines .none rest).map (.heading level [t] :: ·) := by
  rw [show [t, u] ++ [] :: rest = t :: u :: [] :: rest from rfl, readLines, lineKind_text ht]
  simp only
  rw [readLines, hu]
  simp only [readLines_blank]

theorem written_heading (cx : Cx) {level : Nat} {ls : List (List Char)} (hv : CoreValid (.heading level ls))
    (hf : BlockFits cx (.heading level ls)) : ∃ b' L, Written cx (.heading level ls) b' L := by
  obtain ⟨⟨h1, h6⟩, h0, hl, hcont⟩ := hv
  obtain ⟨ht, hw⟩ := textLine_joinSpace h0 hl
  obtain ⟨hsc, hb⟩ := sameContent_moved (ms := [joinWith [' '] ls]) hcont (fun l hm => textLine_nl (hl l hm))
    (by simpa using textLine_nl ht) (fun he => by simpa using ends_join he) rfl
  have hwidth : 0 < cx.width (joinWith [' '] ls) := hf.1
  have hsame : SameBlock cx.opts.defaultLanguage (.heading level ls) (.heading level [joinWith [' '] ls]) := by
    refine ⟨rfl, ?_, hsc⟩
    rw [← hw]; simp [lineWords]
  have hvalid : CoreValid (.heading level [joinWith [' '] ls]) := ⟨⟨h1, h6⟩, by simp, by simpa using ht, hb⟩
  have hagain : coreText cx (.heading level [joinWith [' '] ls]) = coreText cx (.heading level ls) := rfl
  have hchars := textLine_chars ht
  by_cases c1 : level = 1 ∧ cx.opts.setextH1 = true
  · refine ⟨_, [joinWith [' '] ls, List.replicate (cx.width (joinWith [' '] ls)) '='], ?_, hsame, fun _ => by simp [FitsTree], fun _ _ => rfl, hagain, rfl, hvalid, ?_, by simp, ?_, ?_, ?_, ?_, ?_⟩
    · rw [coreText, headingText, if_pos c1]
      simp [unlines]
    · intro l hm
      simp only [List.mem_cons, List.not_mem_nil, or_false] at hm
      rcases hm with rfl | rfl
      · exact hchars
      · exact replicate_chars _ (by decide)
    · simpa using textLine_ne_rule ht
    · intro rest
      rw [c1.1]
      exact setext_read ht (underline_replicate hwidth).1 rest
    · simpa using blockStart_text ht
    · intro _ l hl _
      simp only [List.mem_cons, List.not_mem_nil, or_false] at hl
      rcases hl with rfl | rfl
      · exact textLine_noTab ht
      · exact fun h => absurd (List.eq_of_mem_replicate h) (by decide)
    · simpa using Nat.pos_iff_ne_zero.1 hwidth
  · by_cases c2 : level = 2 ∧ cx.opts.setextH2 = true
    · refine ⟨_, [joinWith [' '] ls, List.replicate (cx.width (joinWith [' '] ls)) '-'], ?_, hsame, fun _ => by simp [FitsTree], fun _ _ => rfl, hagain, rfl, hvalid, ?_, by simp, ?_, ?_, ?_, ?_, ?_⟩
      · rw [coreText, headingText, if_neg c1, if_pos c2]
        simp [unlines]
      · intro l hm
        simp only [List.mem_cons, List.not_mem_nil, or_false] at hm
        rcases hm with rfl | rfl
        · exact hchars
        · exact replicate_chars _ (by decide)
      · simpa using textLine_ne_rule ht
      · intro rest
        rw [c2.1]
        exact setext_read ht (underline_replicate hwidth).2 rest
      · simpa using blockStart_text ht
      · intro _ l hl _
        simp only [List.mem_cons, List.not_mem_nil, or_false] at hl
        rcases hl with rfl | rfl
        · exact textLine_noTab ht
        · exact fun h => absurd (List.eq_of_mem_replicate h) (by decide)
      · simpa using Nat.pos_iff_ne_zero.1 hwidth
    · refine ⟨_, [List.replicate level '#' ++ [' '] ++ joinWith [' '] ls], ?_, hsame, fun _ => by simp [FitsTree], fun _ _ => rfl, hagain, rfl, hvalid, ?_, by simp, ?_, ?_, ?_, ?_, ?_⟩
      · rw [coreText, headingText, if_neg c1, if_neg c2]
        simp [unlines]
      · intro l hm
        rw [List.mem_singleton] at hm
        subst hm
        have hr := replicate_chars level (c := '#') (by decide)
        simp only [List.mem_append, not_or]
        exact ⟨⟨⟨hr.1, by decide⟩, hchars.1⟩, ⟨⟨hr.2.1, by decide⟩, hchars.2.1⟩, ⟨hr.2.2, by decide⟩, hchars.2.2⟩
      · obtain ⟨k, rfl⟩ : ∃ k, level = k + 1 := ⟨level - 1, by omega⟩
        simp [List.replicate_succ]
      · intro rest
        rw [List.singleton_append, readLines, lineKind_atx ht h1 h6]
        simp only [readLines_blank]
      · intro l hl k hk
        simp only [List.head?_cons, Option.mem_some] at hl
        rw [← hl, lineKind_atx ht h1 h6] at hk
        rw [← hk]; simp
      · intro _ l hl _
        rw [List.mem_singleton] at hl
        subst hl
        have hr : '\t' ∉ List.replicate level '#' := fun h => absurd (List.eq_of_mem_replicate h) (by decide)
        simp only [List.mem_append, not_or]
        exact ⟨⟨hr, by decide⟩, textLine_noTab ht⟩
      · simp

theorem written_code_at {cx : Cx} (ho : CoreOptions cx.opts) {info : List Char} {ls : List (List Char)} (hv : CoreValid (.code info ls))
    (hf : BlockFits cx (.code info ls)) : Written cx (.code info ls) (.code (shownInfo cx.opts.defaultLanguage info) ls)
      ((fenceOf cx (unlines ls) ++ infoPart cx info) :: ls ++ [fenceOf cx (unlines ls)]) := by
  obtain ⟨hl, hi, hc⟩ := hv
  have hio : InfoOk cx info := hf
  have hstrip := strip_shownInfo ho.language.1 info
  have hplain : InfoPlain (shownInfo cx.opts.defaultLanguage info) := shownInfo_plain ho.language.2.2 hi
  have hlen : 3 ≤ fenceLength cx.opts.minFenceLength cx.opts.fenceChar (unlines ls) := by
    have := ho.fenceLength
    simp only [fenceLength]
    omega
  have hfc : cx.opts.fenceChar ≠ '\n' ∧ cx.opts.fenceChar ≠ '\r' ∧ cx.opts.fenceChar ≠ '\x00' := by
    rcases ho.fence with h | h <;> rw [h] <;> decide
  have hfr := replicate_chars (fenceLength cx.opts.minFenceLength cx.opts.fenceChar (unlines ls)) hfc
  have hip : ∀ c ∈ infoPart cx info, c ≠ '\n' ∧ c ≠ '\r' ∧ c ≠ '\x00' := by
    intro c hm
    simp only [infoPart, outputInfo_eq] at hm
    split at hm
    · cases hm
    · rcases List.mem_append.1 hm with h | h
      · split at h
        · rw [List.mem_singleton.1 h]; decide
        · cases h
      · have := hplain c h
        exact ⟨this.1, this.2.1, this.2.2.1⟩
  refine ⟨?_, ⟨rfl, rfl⟩, fun _ => by simp [FitsTree], fun _ _ => rfl, ?_, rfl, ⟨hl, hplain, hc⟩, ?_, by simp, ?_, ?_, ?_, ?_, ?_⟩
  · rw [coreText, codeBlockText_false, lines_unlines hl]
  · rw [coreText, coreText, codeBlockText_false, codeBlockText_false]
    simp only [infoPart, outputInfo_eq, shownInfo_twice ho.language.2.1]
  · intro l hm
    simp only [List.cons_append, List.mem_cons, List.mem_append, List.not_mem_nil, or_false] at hm
    rcases hm with rfl | hm | rfl
    · simp only [fenceOf, List.mem_append, not_or]
      exact ⟨⟨hfr.1, fun h => (hip _ h).1 rfl⟩, ⟨hfr.2.1, fun h => (hip _ h).2.1 rfl⟩, hfr.2.2, fun h => (hip _ h).2.2 rfl⟩
    · exact ⟨(hl l hm).1, hc l hm⟩
    · exact hfr
  · simp only [List.cons_append, List.head?_cons, fenceOf]
    obtain ⟨k, hk⟩ : ∃ k, fenceLength cx.opts.minFenceLength cx.opts.fenceChar (unlines ls) = k + 1 :=
      ⟨fenceLength cx.opts.minFenceLength cx.opts.fenceChar (unlines ls) - 1, by omega⟩
    rw [hk, List.replicate_succ, List.cons_append, ne_eq, Option.some.injEq, List.cons.injEq, not_and]
    intro h
    rcases ho.fence with e | e <;> rw [e] at h <;> exact absurd h (by decide)
  · intro rest
    rw [List.cons_append, List.cons_append, readLines, fenceOf, lineKind_fence ho.fence hio hstrip hplain hlen]
    simp only
    rw [List.append_assoc, List.singleton_append, readLines_code ls []]
    · simp only [readLines_blank, List.nil_append]
    · intro l hm
      refine not_isClosing (fence_ws ho.fence) (Nat.lt_of_lt_of_le (by decide) hlen) (leadingFence_lt _ _ _ ?_)
      rw [lines_unlines hl]; exact hm
    · exact isClosing_fence (fence_sp ho.fence) _
  · intro l hm k hk
    simp only [List.cons_append, List.head?_cons, Option.mem_some] at hm
    rw [← hm, fenceOf, lineKind_fence ho.fence hio hstrip hplain hlen] at hk
    rw [← hk]; simp
  · intro ht l hm
    have hfb : ∀ x : List Char, (fenceOf cx (unlines ls) ++ x).all blankChar = false := by
      intro x
      obtain ⟨k, hk⟩ : ∃ k, fenceLength cx.opts.minFenceLength cx.opts.fenceChar (unlines ls) = k + 1 :=
        ⟨fenceLength cx.opts.minFenceLength cx.opts.fenceChar (unlines ls) - 1, by omega⟩
      rw [fenceOf, hk, List.replicate_succ]
      rcases ho.fence with e | e <;> rw [e] <;> rfl
    simp only [List.cons_append, List.mem_cons, List.mem_append, List.not_mem_nil, or_false] at hm
    rcases hm with rfl | hm | rfl
    · intro e; rw [hfb] at e; cases e
    · exact ht _ _ rfl l hm
    · intro e
      have := hfb []
      rw [List.append_nil, e] at this; cases this
  · intro l hm
    rw [List.getLast?_append, List.getLast?_singleton, Option.some_or, Option.mem_some] at hm
    rw [← hm, fenceOf, ne_eq, List.replicate_eq_nil_iff]
    omega

theorem written_code {cx : Cx} (ho : CoreOptions cx.opts) {info : List Char} {ls : List (List Char)} (hv : CoreValid (.code info ls))
    (hf : BlockFits cx (.code info ls)) : ∃ b' L, Written cx (.code info ls) b' L := ⟨_, _, written_code_at ho hv hf⟩

theorem isRule_not_blank {l : List Char} (h : isRule l = true) : l.all blankChar = false := by
  unfold isRule at h
  rw [Bool.and_eq_true, List.any_eq_true] at h
  obtain ⟨_, m, hm, h⟩ := h
  simp only [Bool.and_eq_true, decide_eq_true_eq] at h
  have hd := List.mem_of_head? h.1.1
  refine not_blank_line ((List.dropWhile_suffix _).subset hd) ?_
  exact (show ∀ c ∈ [('*' : Char), '-', '_'], blankChar c = false by decide) m hm

theorem written_rule {cx : Cx} (ho : CoreOptions cx.opts) : ∃ b' L, Written cx .rule b' L := by
  refine ⟨.rule, [spaces cx.opts.thematicBreakLeadingSpaces ++ cx.opts.thematicBreakStyle], ?_, trivial, fun _ => by simp [FitsTree], fun _ _ => rfl, rfl, rfl, trivial, ?_, by simp, ?_, ?_, ?_, ?_, ?_⟩
  · simp [coreText, unlines]
  · intro l hm
    rw [List.mem_singleton] at hm
    subst hm
    exact ⟨fun h => absurd (rule_chars ho.rule h) (by decide), fun h => absurd (rule_chars ho.rule h) (by decide),
      fun h => absurd (rule_chars ho.rule h) (by decide)⟩
  · simpa using ho.noFrontMatter
  · intro rest
    rw [List.singleton_append, readLines, lineKind_rule ho.rule]
    simp only [readLines_blank]
  · intro l hl k hk
    simp only [List.head?_cons, Option.mem_some] at hl
    rw [← hl, lineKind_rule ho.rule] at hk
    rw [← hk]; simp
  · intro _ l hl hb
    rw [List.mem_singleton] at hl
    subst hl
    have := isRule_not_blank ho.rule
    rw [hb] at this; cases this
  · intro l hm e
    simp only [List.getLast?_singleton, Option.mem_some] at hm
    have := isRule_not_blank ho.rule
    rw [hm, e] at this; cases this

theorem written {cx : Cx} (ho : CoreOptions cx.opts) {b : CoreBlock} (hv : CoreValid b) (hd : b.isDefinition = false) (hf : BlockFits cx b) :
    ∃ b' L, Written cx b b' L := by
  cases b with
  | heading level ls => exact written_heading cx hv hf
  | paragraph ls => exact written_paragraph cx hv
  | code info ls => exact written_code ho hv hf
  | rule => exact written_rule ho
  | definition _ _ => cases hd

/-! ### Documents are read back -/

theorem unlines_append' (a b : List (List Char)) : unlines (a ++ b) = unlines a ++ unlines b := by
  simp [unlines]

/-- The lines of a gap. -/
theorem coreGap_lines (p b : CoreBlock) : ∃ g, coreGap (some p) b = unlines ([] :: List.replicate g []) := by
  simp only [coreGap]
  split
  · split
    · exact ⟨0, rfl⟩
    · exact ⟨1, rfl⟩
  · exact ⟨0, rfl⟩

theorem coreGap_level {p p' b b' : CoreBlock} (hp : coreLevel p' = coreLevel p) (hb : coreLevel b' = coreLevel b) :
    coreGap (some p') b' = coreGap (some p) b := by
  simp only [coreGap, hp, hb]

theorem readLines_blanks (n : Nat) (rest : List (List Char)) : readLines .none (List.replicate n [] ++ rest) = readLines .none rest := by
  induction n with
  | zero => rfl
  | succ n ih => rw [List.replicate_succ, List.cons_append, readLines_blank, ih]

/-- What is known of the lines of the rest of a document. -/
structure WrittenDoc (cx : Cx) (prev prev' : Option CoreBlock) (bs bs' : List CoreBlock) (X : List (List Char)) : Prop where
  text : coreDoc cx prev bs = unlines X
  same : SameDoc cx.opts.defaultLanguage bs bs'
  fit : WidthOk cx.width → ∀ b ∈ bs', FitsTree (FitsOrWord cx.width cx.opts.lineWidth) 0 0 (.leaf false b)
  keep : WidthOk cx.width → (∀ b ∈ bs, FitsTree (Fits cx.width cx.opts.lineWidth) 0 0 (.leaf false b)) → paragraphLines bs' = paragraphLines bs
  again : coreDoc cx prev' bs' = coreDoc cx prev bs
  valid : ∀ b ∈ bs', CoreValid b
  chars : ∀ l ∈ X, '\n' ∉ l ∧ '\r' ∉ l ∧ '\x00' ∉ l
  first : prev = none → (X ++ [[]]).head? ≠ some ['-', '-', '-']
  gap : prev.isSome = true → (X ++ [[]]).head? = some []
  reads : readLines .none (X ++ [[]]) = some bs'

theorem writtenDoc {cx : Cx} (ho : CoreOptions cx.opts) : ∀ (bs : List CoreBlock) (prev prev' : Option CoreBlock),
    prev'.map coreLevel = prev.map coreLevel → (∀ b ∈ bs, CoreValid b ∧ b.isDefinition = false) → (∀ b ∈ bs, BlockFits cx b) →
    ∃ bs' X, WrittenDoc cx prev prev' bs bs' X
  | [], prev, prev', _, _, _ => by
    refine ⟨[], [], rfl, trivial, by simp, fun _ _ => rfl, ?_, by simp, by simp, by simp, by simp, ?_⟩
    · rw [coreDoc, coreDoc]
    · rw [List.nil_append, readLines_blank]; rfl
  | b :: bs, prev, prev', hp, hv, hf => by
    obtain ⟨b', L, hb⟩ := written ho (hv b (by simp)).1 (hv b (by simp)).2 (hf b (by simp))
    obtain ⟨bs', X, hX⟩ := writtenDoc ho bs (some b) (some b') (by simp [hb.level]) (fun x hx => hv x (by simp [hx]))
      (fun x hx => hf x (by simp [hx]))
    obtain ⟨Y, hY⟩ : ∃ Y, X ++ [[]] = [] :: Y := by
      have := hX.gap rfl
      cases h : X ++ [[]] with
      | nil => simp at h
      | cons x Y => rw [h] at this; simp at this; exact ⟨Y, by rw [this]⟩
    have hreads : readLines .none (L ++ X ++ [[]]) = some (b' :: bs') := by
      have hr := hX.reads
      rw [hY, readLines_blank] at hr
      rw [List.append_assoc, hY, hb.reads, hr]; rfl
    have hchars : ∀ l ∈ L ++ X, '\n' ∉ l ∧ '\r' ∉ l ∧ '\x00' ∉ l := by
      intro l hl
      rcases List.mem_append.1 hl with h | h
      · exact hb.chars l h
      · exact hX.chars l h
    have hfit : WidthOk cx.width → ∀ x ∈ b' :: bs', FitsTree (FitsOrWord cx.width cx.opts.lineWidth) 0 0 (.leaf false x) := by
      intro hwo x hx
      rcases List.mem_cons.1 hx with rfl | hx
      · exact hb.fit hwo
      · exact hX.fit hwo x hx
    have hkeep : WidthOk cx.width → (∀ x ∈ b :: bs, FitsTree (Fits cx.width cx.opts.lineWidth) 0 0 (.leaf false x)) →
        paragraphLines (b' :: bs') = paragraphLines (b :: bs) := by
      intro hwo hfit
      rw [← List.singleton_append, paragraphLines_append, hb.keep hwo (hfit b (by simp)), hX.keep hwo (fun x hx => hfit x (by simp [hx])),
        ← paragraphLines_append]
      rfl
    have hvalid : ∀ x ∈ b' :: bs', CoreValid x := by
      intro x hx
      rcases List.mem_cons.1 hx with rfl | hx
      · exact hb.valid
      · exact hX.valid x hx
    cases prev with
    | none =>
      cases prev' with
      | some _ => simp at hp
      | none =>
        refine ⟨b' :: bs', L ++ X, ?_, ⟨hb.same, hX.same⟩, hfit, hkeep, ?_, hvalid, hchars, ?_, by simp, hreads⟩
        · rw [coreDoc, coreGap, hb.text, hX.text, unlines_append', List.nil_append]
        · rw [coreDoc, coreDoc, coreGap, coreGap, hb.again, hX.again]
        · intro _
          have := hb.first
          cases hL : L with
          | nil => exact absurd hL hb.ne
          | cons l L' => rw [hL] at this; simpa using this
    | some p =>
      cases prev' with
      | none => simp at hp
      | some p' =>
        obtain ⟨g, hg⟩ := coreGap_lines p b
        refine ⟨b' :: bs', ([] :: List.replicate g []) ++ (L ++ X), ?_, ⟨hb.same, hX.same⟩, hfit, hkeep, ?_, hvalid, ?_, by simp, by simp, ?_⟩
        · rw [coreDoc, hg, hb.text, hX.text, unlines_append', unlines_append', List.append_assoc]
        · rw [coreDoc, coreDoc, hb.again, hX.again, coreGap_level (by simpa using hp) hb.level]
        · intro l hl
          rcases List.mem_append.1 hl with h | h
          · have : l = [] := by
              rcases List.mem_cons.1 h with h | h
              · exact h
              · exact List.eq_of_mem_replicate h
            subst this; simp
          · exact hchars l h
        · rw [List.append_assoc, List.cons_append, readLines_blank, readLines_blanks, hreads]

theorem mem_unlines {ls : List (List Char)} {c : Char} (h : c ∈ unlines ls) : c = '\n' ∨ ∃ l ∈ ls, c ∈ l := by
  unfold unlines at h
  obtain ⟨x, hx, hc⟩ := List.mem_flatten.1 h
  obtain ⟨l, hl, rfl⟩ := List.mem_map.1 hx
  rcases List.mem_append.1 hc with h | h
  · exact .inr ⟨l, hl, h⟩
  · exact .inl (List.mem_singleton.1 h)

/-! ### Quotation marks -/

theorem mem_flat {c : Char} (hc : gapChar c = false) (t : List Char) : c ∈ t.map flatChar ↔ c ∈ t := by
  rw [List.mem_map]
  constructor
  · rintro ⟨d, hd, e⟩
    rwa [← (flatChar_eq_iff hc).1 e]
  · exact fun h => ⟨c, h, (flatChar_eq_iff hc).2 rfl⟩

theorem mem_spanWords_flat {c : Char} (hc : gapChar c = false) (s : Span) : c ∈ spanWords (flatSpan s) ↔ c ∈ spanWords s := by
  cases s with
  | text t => exact mem_flat hc t
  | code t => exact Iff.rfl

theorem mem_runWords_flat {c : Char} (hc : gapChar c = false) (r : Run) : c ∈ runWords (flatRun r) ↔ c ∈ runWords r := by
  cases r with
  | span s => exact mem_spanWords_flat hc s
  | emph d strong inner => simp [runWords, flatRun, List.flatMap_map, mem_spanWords_flat hc]
  | link t => exact Iff.rfl
  | direct _ t _ => exact Iff.rfl

theorem mem_words_flat {c : Char} (hc : gapChar c = false) (a : List Run) : c ∈ (a.map flatRun).flatMap runWords ↔ c ∈ a.flatMap runWords := by
  simp [List.flatMap_map, mem_runWords_flat hc]

theorem spanWords_subset (s : Span) : spanWords s ⊆ spanText s := by
  cases s with
  | text t => exact fun _ h => h
  | code t => exact fun _ h => by cases h

theorem runWords_subset (r : Run) : runWords r ⊆ runText r := by
  intro c hc
  cases r with
  | span s => exact spanWords_subset s hc
  | emph d strong inner =>
    obtain ⟨s, hs, hm⟩ := List.mem_flatMap.1 hc
    exact List.mem_append_left _ (List.mem_append_right _ (List.mem_flatMap.2 ⟨s, hs, spanWords_subset s hm⟩))
  | link t => simp only [runWords, runText] at hc ⊢; simp [hc]
  | direct image t url => simp only [runWords, runText] at hc ⊢; simp [hc]

/-- Lines without quotation marks. -/
theorem linesKept_without {cx : Cx} {ls : List (List Char)} (h1 : '"' ∉ joinWith ['\n'] ls) (h2 : '\'' ∉ joinWith ['\n'] ls)
    (h3 : ¬ [']', '(', 'h', 't', 't', 'p'] <:+: joinWith ['\n'] ls) : LinesKept cx ls := by
  intro a ha
  have key : ∀ c, c ∈ a.flatMap runWords → c ∈ joinWith ['\n'] ls := by
    intro c hc
    obtain ⟨r, hr, hm⟩ := List.mem_flatMap.1 hc
    rw [← ha.1]
    exact List.mem_flatMap.2 ⟨r, hr, runWords_subset r hm⟩
  refine ⟨⟨fun h => absurd (key _ h) h1, fun h => absurd (key _ h) h2⟩, fun r hr ho => h3 ?_⟩
  rw [← ha.1]
  obtain ⟨s, v, rfl⟩ := List.append_of_mem hr
  cases r with
  | direct image t url =>
    cases image with
    | true => exact absurd ho id
    | false =>
      have hx : ['h', 't', 't', 'p'] <+: url := by
        rcases ho with h | h
        · exact List.IsPrefix.trans (by decide) h
        · exact List.IsPrefix.trans (by decide) h
      obtain ⟨u, rfl⟩ := hx
      refine List.IsInfix.trans (?_ : _ <:+: runText (.direct false t (['h', 't', 't', 'p'] ++ u))) ?_
      · exact ⟨'[' :: t, u ++ [')'], by simp [runText, bangOf]⟩
      · exact ⟨runsText s, runsText v, by simp [runsText]⟩
  | _ => exact absurd ho id

/-- The same content has the same quotation marks. -/
theorem linesKept_same {cx : Cx} {ls ls' : List (List Char)} (h : SameContent ls ls') (hk : LinesKept cx ls) : LinesKept cx ls' := by
  obtain ⟨a, b, ha, hb, e⟩ := h
  intro b' hb'
  obtain rfl := content_unique hb hb'
  obtain ⟨⟨h1, h2⟩, h3⟩ := hk a ha
  have key : ∀ c, gapChar c = false → c ∈ b.flatMap runWords → c ∈ a.flatMap runWords := by
    intro c hc hm
    rwa [← mem_words_flat hc, e, mem_words_flat hc]
  refine ⟨⟨fun hm => h1 (key _ (by decide) hm), fun hm => h2 (key _ (by decide) hm)⟩, fun r hr ho => ?_⟩
  have hm : flatRun r ∈ a.map flatRun := e ▸ List.mem_map_of_mem hr
  obtain ⟨x, hx, e⟩ := List.mem_map.1 hm
  refine h3 x hx ?_
  cases r <;> first | exact absurd ho id | skip
  cases x <;> first | cases e | skip
  exact ho

theorem blockKept_same {cx : Cx} {dflt : List Char} {b b' : CoreBlock} (h : SameBlock dflt b b') (hk : BlockKept cx b) : BlockKept cx b' := by
  cases b <;> cases b' <;> first | exact absurd h id | exact linesKept_same h.2.2 hk | exact linesKept_same h.2 hk | trivial

theorem sameDoc_kept {cx : Cx} {dflt : List Char} : ∀ {bs bs' : List CoreBlock}, SameDoc dflt bs bs' → (∀ b ∈ bs, BlockKept cx b) →
    ∀ b ∈ bs', BlockKept cx b
  | [], [], _, _, b, hb => by cases hb
  | b :: bs, c :: cs, h, hk, x, hx => by
    rcases List.mem_cons.1 hx with rfl | hx
    · exact blockKept_same h.1 (hk b (by simp))
    · exact sameDoc_kept h.2 (fun y hy => hk y (by simp [hy])) x hx
  | [], _ :: _, h, _, _, _ => absurd h id
  | _ :: _, [], h, _, _, _ => absurd h id

theorem coreDoc_reads {cx : Cx} (ho : CoreOptions cx.opts) {bs : List CoreBlock}
    (hv : ∀ b ∈ bs, CoreValid b ∧ b.isDefinition = false) (hf : ∀ b ∈ bs, BlockFits cx b) :
    ∃ bs', readCore (coreDoc cx none bs) = some bs' ∧ SameDoc cx.opts.defaultLanguage bs bs' ∧
      coreDoc cx none bs' = coreDoc cx none bs ∧ (∀ b ∈ bs', CoreValid b) ∧ '\r' ∉ coreDoc cx none bs ∧
      (WidthOk cx.width → ∀ b ∈ bs', FitsTree (FitsOrWord cx.width cx.opts.lineWidth) 0 0 (.leaf false b)) ∧
      (WidthOk cx.width → (∀ b ∈ bs, FitsTree (Fits cx.width cx.opts.lineWidth) 0 0 (.leaf false b)) → paragraphLines bs' = paragraphLines bs) := by
  obtain ⟨bs', X, h⟩ := writtenDoc ho bs none none rfl hv hf
  have hno : ∀ c, c = '\r' ∨ c = '\x00' → c ∉ coreDoc cx none bs := by
    intro c hc hm
    rw [h.text] at hm
    rcases mem_unlines hm with rfl | ⟨l, hl, hm⟩
    · rcases hc with hc | hc <;> exact absurd hc (by decide)
    · rcases hc with rfl | rfl
      · exact (h.chars l hl).2.1 hm
      · exact (h.chars l hl).2.2 hm
  have hs : splitOn '\n' (coreDoc cx none bs) = X ++ [[]] := by
    have := splitOn_unlines (fun l hl => (h.chars l hl).1) []
    rw [List.append_nil] at this
    rw [h.text, this]; rfl
  refine ⟨bs', ?_, h.same, h.again, h.valid, hno _ (.inl rfl), h.fit, h.keep⟩
  rw [readCore, hs, if_neg]
  · exact h.reads
  · rintro (e | e | e)
    · exact hno _ (.inl rfl) e
    · exact hno _ (.inr rfl) e
    · exact h.first rfl e

/-! ### What the reader gives -/

theorem atxLine_level {l : List Char} {level : Nat} {t : List Char} (h : atxLine l = some (level, t)) : 1 ≤ level ∧ level ≤ 6 := by
  unfold atxLine at h
  simp only at h
  split at h
  · next hc =>
    simp only [Option.some.injEq, Prod.mk.injEq] at h
    rw [← h.1]
    exact ⟨hc.1, hc.2.1⟩
  · cases h

theorem strip_subset {s : List Char} {c : Char} (h : c ∈ strip s) : c ∈ s := by
  unfold strip at h
  rw [List.mem_reverse] at h
  have := (List.dropWhile_suffix _).subset h
  rw [List.mem_reverse] at this
  exact (List.dropWhile_suffix _).subset this

theorem readOpening_info {l : List Char} {f : Fence} (h : readOpening l = some f) : ∀ c ∈ f.info, c ∈ l := by
  unfold readOpening at h
  simp only at h
  split at h
  · cases h
  · split at h
    · cases h
    · next c rest hb =>
      split at h
      · simp only [Option.some.injEq] at h
        subst h
        intro d hd
        have h2 := List.mem_of_mem_drop (strip_subset hd)
        exact (List.dropWhile_suffix _).subset h2
      · cases h

theorem lineKind_heading {l : List Char} {level : Nat} {t : List Char} (h : lineKind l = .heading level t) :
    atxLine l = some (level, t) ∧ TextLine t := by
  unfold lineKind at h
  split at h
  · cases h
  · split at h
    · cases h
    · split at h
      · cases h
      · split at h
        · next h2 =>
          split at h
          · cases h; exact ⟨h2, by assumption⟩
          · cases h
        · split at h
          · split at h <;> cases h
          · split at h <;> cases h

theorem lineKind_textLine {l : List Char} (h : lineKind l = .text) : TextLine l := by
  unfold lineKind at h
  split at h
  · cases h
  · split at h
    · cases h
    · split at h
      · assumption
      · split at h
        · split at h <;> cases h
        · split at h
          · split at h <;> cases h
          · split at h <;> cases h

theorem lineKind_isFence {l : List Char} {f : Fence} (h : lineKind l = .fence f) :
    readOpening l = some f ∧ '\\' ∉ f.info ∧ '&' ∉ f.info := by
  unfold lineKind at h
  split at h
  · cases h
  · split at h
    · cases h
    · split at h
      · cases h
      · split at h
        · split at h <;> cases h
        · split at h
          · next h2 =>
            split at h
            · next h3 => cases h; exact ⟨h2, h3.2⟩
            · cases h
          · split at h <;> cases h

theorem lineKind_isDefinition {l label : List Char} {target : List Char × List Char} (h : lineKind l = .definition label target) :
    definitionLine l = some (label, target) := by
  unfold lineKind at h
  split at h
  · cases h
  · split at h
    · cases h
    · split at h
      · cases h
      · split at h
        · split at h <;> cases h
        · split at h
          · split at h <;> cases h
          · split at h
            · next h2 => cases h; exact h2
            · cases h

theorem definitionLine_ok {l label : List Char} {target : List Char × List Char} (h : definitionLine l = some (label, target)) :
    LinkOk label ∧ TargetOk target := by
  unfold definitionLine at h
  split at h
  · split at h
    · next hc => cases h; exact hc
    · cases h
  · cases h

/-- A mode of the reader that only has what it read. -/
def ModeValid : ReadMode → Prop
  | .none => True
  | .paragraph ls => ls ≠ [] ∧ ∀ l ∈ ls, TextLine l
  | .code f ls => InfoPlain f.info ∧ ∀ l ∈ ls, '\n' ∉ l ∧ '\r' ∉ l ∧ '\x00' ∉ l

theorem coreValid_code {info : List Char} {ls : List (List Char)} (hi : InfoPlain info)
    (h : ∀ l ∈ ls, '\n' ∉ l ∧ '\r' ∉ l ∧ '\x00' ∉ l) : CoreValid (.code info ls) :=
  ⟨fun l hl => ⟨(h l hl).1, fun e => (h l hl).2.1 (List.mem_of_getLast? e)⟩, hi, fun l hl => (h l hl).2⟩

theorem map_some {α β : Type} {f : α → β} {x : Option α} {y : β} (h : x.map f = some y) : ∃ a, x = some a ∧ f a = y := by
  cases x with
  | none => cases h
  | some a => exact ⟨a, rfl, by simpa using h⟩

theorem readLines_valid : ∀ (L : List (List Char)) (m : ReadMode) (bs : List CoreBlock),
    (∀ l ∈ L, '\n' ∉ l ∧ '\r' ∉ l ∧ '\x00' ∉ l) → ModeValid m → readLines m L = some bs → ∀ b ∈ bs, LinesValid b ∧ b.isDefinition = false
  | [], m, bs, _, hm, h => by
    cases m with
    | none => rw [readLines] at h; cases h; simp
    | paragraph ls => rw [readLines] at h; cases h; intro b hb; rw [List.mem_singleton.1 hb]; exact ⟨hm, rfl⟩
    | code f ls => rw [readLines] at h; cases h
  | l :: L, m, bs, hL, hm, h => by
    have hl := hL l (by simp)
    have hr : ∀ x ∈ L, '\n' ∉ x ∧ '\r' ∉ x ∧ '\x00' ∉ x := fun x hx => hL x (by simp [hx])
    have ih : ∀ m bs, readLines m L = some bs → ModeValid m → ∀ b ∈ bs, LinesValid b ∧ b.isDefinition = false :=
      fun m bs h hm => readLines_valid L m bs hr hm h
    have hfence : ∀ f, lineKind l = .fence f → ModeValid (.code f []) := by
      intro f hf
      obtain ⟨h1, h2, h3⟩ := lineKind_isFence hf
      refine ⟨fun c hc => ⟨?_, ?_, ?_, ?_, ?_⟩, by simp⟩
      · rintro rfl; exact hl.1 (readOpening_info h1 _ hc)
      · rintro rfl; exact hl.2.1 (readOpening_info h1 _ hc)
      · rintro rfl; exact hl.2.2 (readOpening_info h1 _ hc)
      · rintro rfl; exact h2 hc
      · rintro rfl; exact h3 hc
    have hhead : ∀ level t, lineKind l = .heading level t → LinesValid (.heading level [t]) ∧ (CoreBlock.heading level [t]).isDefinition = false := by
      intro level t ht
      obtain ⟨h1, h2⟩ := lineKind_heading ht
      exact ⟨⟨atxLine_level h1, by simp, by simpa using h2⟩, rfl⟩
    cases m with
    | none =>
      rw [readLines] at h
      split at h
      · exact ih _ _ h trivial
      · obtain ⟨a, ha, rfl⟩ := map_some h
        intro b hb
        rcases List.mem_cons.1 hb with rfl | hb
        · exact ⟨trivial, rfl⟩
        · exact ih _ _ ha trivial b hb
      · next hk => exact ih _ _ h ⟨by simp, by simpa using lineKind_textLine hk⟩
      · next level t hk =>
        obtain ⟨a, ha, rfl⟩ := map_some h
        intro b hb
        rcases List.mem_cons.1 hb with rfl | hb
        · exact hhead _ _ hk
        · exact ih _ _ ha trivial b hb
      · next f hk => exact ih _ _ h (hfence f hk)
      · cases h
      · cases h
    | paragraph ls =>
      rw [readLines] at h
      split at h
      · next level hu =>
        obtain ⟨a, ha, rfl⟩ := map_some h
        intro b hb
        rcases List.mem_cons.1 hb with rfl | hb
        · refine ⟨⟨?_, hm⟩, rfl⟩
          unfold underline at hu
          split at hu
          · cases hu; decide
          · split at hu
            · cases hu; decide
            · cases hu
        · exact ih _ _ ha trivial b hb
      · split at h
        · obtain ⟨a, ha, rfl⟩ := map_some h
          intro b hb
          rcases List.mem_cons.1 hb with rfl | hb
          · exact ⟨hm, rfl⟩
          · exact ih _ _ ha trivial b hb
        · split at h
          · cases h
          · obtain ⟨a, ha, rfl⟩ := map_some h
            intro b hb
            simp only [List.cons_append, List.nil_append, List.mem_cons] at hb
            rcases hb with rfl | rfl | hb
            · exact ⟨hm, rfl⟩
            · exact ⟨trivial, rfl⟩
            · exact ih _ _ ha trivial b hb
        · next hk =>
          refine ih _ _ h ⟨by simp, fun x hx => ?_⟩
          rcases List.mem_append.1 hx with hx | hx
          · exact hm.2 x hx
          · rw [List.mem_singleton.1 hx]; exact lineKind_textLine hk
        · next level t hk =>
          obtain ⟨a, ha, rfl⟩ := map_some h
          intro b hb
          simp only [List.cons_append, List.nil_append, List.mem_cons] at hb
          rcases hb with rfl | rfl | hb
          · exact ⟨hm, rfl⟩
          · exact hhead _ _ hk
          · exact ih _ _ ha trivial b hb
        · next f hk =>
          obtain ⟨a, ha, rfl⟩ := map_some h
          intro b hb
          rcases List.mem_cons.1 hb with rfl | hb
          · exact ⟨hm, rfl⟩
          · exact ih _ _ ha (hfence f hk) b hb
        · cases h
        · cases h
    | code f ls =>
      rw [readLines] at h
      split at h
      · obtain ⟨a, ha, rfl⟩ := map_some h
        intro b hb
        rcases List.mem_cons.1 hb with rfl | hb
        · exact ⟨coreValid_code hm.1 hm.2, rfl⟩
        · exact ih _ _ ha trivial b hb
      · refine ih _ _ h ⟨hm.1, fun x hx => ?_⟩
        rcases List.mem_append.1 hx with hx | hx
        · exact hm.2 x hx
        · rw [List.mem_singleton.1 hx]; exact hl

theorem readCore_valid {src : List Char} {d : List CoreBlock} (h : ReadsCore src d) :
    '\r' ∉ src ∧ ∀ b ∈ d, CoreValid b ∧ b.isDefinition = false := by
  obtain ⟨h, hcont⟩ := h
  unfold readCore at h
  split at h
  · cases h
  · next hc =>
    simp only [not_or] at hc
    refine ⟨hc.1, fun b hb => ?_⟩
    have hL : ∀ l ∈ splitOn '\n' src, '\n' ∉ l ∧ '\r' ∉ l ∧ '\x00' ∉ l := ?_
    · obtain ⟨h1, h2⟩ := readLines_valid _ .none _ hL trivial h b hb
      exact ⟨coreValid_of h1 (hcont b hb), h2⟩
    intro l hl
    exact ⟨splitOn_not_mem _ _ l hl, fun e => hc.1 (mem_splitOn_subset hl e), fun e => hc.2.1 (mem_splitOn_subset hl e)⟩

/-! ### Trees exist -/

theorem dropWhile_rev_infix (p : Char → Bool) (s : List Char) : (s.reverse.dropWhile p).reverse <:+: s := by
  have := List.reverse_prefix.2 (List.dropWhile_suffix p (l := s.reverse))
  rw [List.reverse_reverse] at this
  exact this.isInfix

theorem dropClosing_infix (s : List Char) : dropClosing s <:+: s := by
  unfold dropClosing
  simp only
  split
  · exact (dropWhile_rev_infix _ _).trans (dropWhile_rev_infix _ _)
  · exact List.infix_rfl

theorem atxLine_infix {l : List Char} {level : Nat} {t : List Char} (h : atxLine l = some (level, t)) : t <:+: l := by
  unfold atxLine at h
  simp only at h
  split at h
  · simp only [Option.some.injEq, Prod.mk.injEq] at h
    rw [← h.2]
    exact (dropClosing_infix _).trans ((dropWhile_rev_infix _ _).trans
      ((List.dropWhile_suffix _).isInfix.trans (List.drop_suffix _ _).isInfix))
  · cases h

/-- The text of a block is in the source. -/
def BlockIn (src : List Char) : CoreBlock → Prop
  | .heading _ ls => ∀ l ∈ ls, l <:+: src
  | .paragraph ls => joinWith ['\n'] ls <:+: src ∧ ∀ l ∈ ls, l <:+: src
  | _ => True

/-- The lines of a paragraph that is being read. -/
def held : ReadMode → List (List Char)
  | .paragraph ls => ls
  | _ => []

theorem readLines_in {src : List Char} : ∀ (L : List (List Char)) (m : ReadMode) (bs : List CoreBlock),
    (∃ pre, splitOn '\n' src = pre ++ held m ++ L) → readLines m L = some bs → ∀ b ∈ bs, BlockIn src b
  | [], m, bs, ⟨pre, hs⟩, h => by
    cases m with
    | none => rw [readLines] at h; cases h; simp
    | paragraph ls =>
      rw [readLines] at h; cases h
      intro b hb
      rw [List.mem_singleton.1 hb]
      have hsrc := join_splitOn '\n' src
      rw [hs] at hsrc
      rw [← hsrc]
      refine ⟨joinWith_infix _ _ _ _, fun l hl => ?_⟩
      obtain ⟨a, c, e⟩ := List.append_of_mem (show l ∈ pre ++ held (.paragraph ls) ++ [] by simp [held, hl])
      rw [e]
      have := joinWith_infix ['\n'] [l] a c
      simpa [joinWith] using this
    | code f ls => rw [readLines] at h; cases h
  | l :: L, m, bs, ⟨pre, hs⟩, h => by
    have hsrc := join_splitOn '\n' src
    rw [hs] at hsrc
    have hline : ∀ x ∈ pre ++ held m ++ l :: L, x <:+: src := by
      intro x hx
      obtain ⟨a, c, e⟩ := List.append_of_mem hx
      rw [← hsrc, e]
      have := joinWith_infix ['\n'] [x] a c
      simpa [joinWith] using this
    have ih : ∀ m' bs, readLines m' L = some bs → (∃ pre, splitOn '\n' src = pre ++ held m' ++ L) →
        ∀ b ∈ bs, BlockIn src b := fun m' bs h hp => readLines_in L m' bs hp h
    have hnext : ∃ q, splitOn '\n' src = q ++ [] ++ L := ⟨pre ++ held m ++ [l], by rw [hs]; simp⟩
    have hhead : ∀ level t, lineKind l = .heading level t → BlockIn src (.heading level [t]) := by
      intro level t ht x hx
      rw [List.mem_singleton.1 hx]
      exact (atxLine_infix (lineKind_heading ht).1).trans (hline l (by simp))
    cases m with
    | none =>
      rw [readLines] at h
      split at h
      · exact ih _ _ h hnext
      · obtain ⟨a, ha, rfl⟩ := map_some h
        intro b hb
        rcases List.mem_cons.1 hb with rfl | hb
        · trivial
        · exact ih _ _ ha hnext b hb
      · exact ih _ _ h ⟨pre, by rw [hs]; simp [held]⟩
      · next level t hk =>
        obtain ⟨a, ha, rfl⟩ := map_some h
        intro b hb
        rcases List.mem_cons.1 hb with rfl | hb
        · exact hhead _ _ hk
        · exact ih _ _ ha hnext b hb
      · exact ih _ _ h hnext
      · cases h
      · cases h
    | paragraph ls =>
      have hpar : BlockIn src (.paragraph ls) := by
        refine ⟨?_, fun x hx => hline x (by simp [held, hx])⟩
        rw [← hsrc]
        exact joinWith_infix _ _ _ _
      rw [readLines] at h
      split at h
      · obtain ⟨a, ha, rfl⟩ := map_some h
        intro b hb
        rcases List.mem_cons.1 hb with rfl | hb
        · exact hpar.2
        · exact ih _ _ ha hnext b hb
      · split at h
        · obtain ⟨a, ha, rfl⟩ := map_some h
          intro b hb
          rcases List.mem_cons.1 hb with rfl | hb
          · exact hpar
          · exact ih _ _ ha hnext b hb
        · split at h
          · cases h
          · obtain ⟨a, ha, rfl⟩ := map_some h
            intro b hb
            simp only [List.cons_append, List.nil_append, List.mem_cons] at hb
            rcases hb with rfl | rfl | hb
            · exact hpar
            · trivial
            · exact ih _ _ ha hnext b hb
        · exact ih _ _ h ⟨pre, by rw [hs]; simp [held]⟩
        · next level t hk =>
          obtain ⟨a, ha, rfl⟩ := map_some h
          intro b hb
          simp only [List.cons_append, List.nil_append, List.mem_cons] at hb
          rcases hb with rfl | rfl | hb
          · exact hpar
          · exact hhead _ _ hk
          · exact ih _ _ ha hnext b hb
        · obtain ⟨a, ha, rfl⟩ := map_some h
          intro b hb
          rcases List.mem_cons.1 hb with rfl | hb
          · exact hpar
          · exact ih _ _ ha hnext b hb
        · cases h
        · cases h
    | code f ls =>
      rw [readLines] at h
      split at h
      · obtain ⟨a, ha, rfl⟩ := map_some h
        intro b hb
        rcases List.mem_cons.1 hb with rfl | hb
        · trivial
        · exact ih _ _ ha hnext b hb
      · exact ih _ _ h hnext

theorem standsAt_of_infix {src text : List Char} (h : text <:+: src) : ∃ p, StandsAt src p text := by
  obtain ⟨a, b, e⟩ := h
  exact ⟨_, a, b, e.symm, rfl⟩

/-- The parts of lines are in the source. -/
def PartsIn (src u : List Char) : Prop := ∀ x, '\n' ∉ x → x ≠ [] → x <:+: u → x <:+: src

theorem partsIn_infix {src u v : List Char} (h : PartsIn src u) (hv : v <:+: u) : PartsIn src v :=
  fun x h1 h2 h3 => h x h1 h2 (h3.trans hv)

theorem partsIn_lines {src : List Char} {ls : List (List Char)} (h : ∀ l ∈ ls, l <:+: src) : PartsIn src (joinWith ['\n'] ls) := by
  intro x h1 h2 h3
  obtain ⟨l, hl, hi⟩ := infix_part h1 h2 ls h3
  exact hi.trans (h l hl)

theorem partNodes_exist {src l : List Char} (hl : '\n' ∉ l) (h : PartsIn src l) : ∃ ns, PartNodes src l ns := by
  by_cases h0 : l = []
  · exact ⟨[], .inl ⟨h0, rfl⟩⟩
  · obtain ⟨p, hp⟩ := standsAt_of_infix (h l hl h0 List.infix_rfl)
    exact ⟨_, .inr ⟨p, h0, rfl, hp⟩⟩

theorem textNodes_exist {src : List Char} : ∀ ls : List (List Char), (∀ l ∈ ls, '\n' ∉ l) → (∀ l ∈ ls, PartsIn src l) → ∃ ns, TextNodes src ls ns
  | [], _, _ => ⟨[], by rw [TextNodes]⟩
  | [l], h1, h2 => by
    obtain ⟨ns, hn⟩ := partNodes_exist (h1 l (by simp)) (h2 l (by simp))
    exact ⟨ns, by rw [TextNodes]; exact hn⟩
  | l :: m :: ls, h1, h2 => by
    obtain ⟨a, ha⟩ := partNodes_exist (h1 l (by simp)) (h2 l (by simp))
    obtain ⟨ns, hn⟩ := textNodes_exist (m :: ls) (fun x hx => h1 x (by simp [hx])) (fun x hx => h2 x (by simp [hx]))
    refine ⟨a ++ .mk .softBreak ⟨1, 1, 1, 1⟩ [] :: ns, ?_⟩
    rw [TextNodes]
    · exact ⟨a, _, ns, rfl, ha, hn⟩
    · simp

theorem spanNodes_exist {src : List Char} {s : Span} (hs : SpanOk s) (h : PartsIn src (spanText s)) : ∃ ns, SpanNodes src s ns := by
  cases s with
  | text t => exact textNodes_exist _ (splitOn_not_mem _ _) fun l hl => partsIn_infix h (infix_of_mem_splitOn hl)
  | code t =>
    obtain ⟨p, hp⟩ := standsAt_of_infix (h (['`'] ++ t ++ ['`']) (by
      simp only [List.mem_append, List.mem_singleton, not_or]
      exact ⟨⟨by decide, codeSpan_nl hs⟩, by decide⟩) (by simp) List.infix_rfl)
    exact ⟨_, p, rfl, .inl hp⟩

theorem spansNodes_exist {src : List Char} : ∀ {ss : List Span}, SpansOk ss → PartsIn src (spansText ss) → ∃ ns, SpansNodes src ss ns
  | [], _, _ => ⟨[], rfl⟩
  | s :: r, hs, h => by
    rw [spansText_cons] at h
    obtain ⟨a, ha⟩ := spanNodes_exist hs.1 (partsIn_infix h (List.prefix_append _ _).isInfix)
    obtain ⟨b, hb⟩ := spansNodes_exist hs.2.2 (partsIn_infix h (List.suffix_append _ _).isInfix)
    exact ⟨a ++ b, a, b, rfl, ha, hb⟩

theorem runNodes_exist {src : List Char} {links : LinkMap} : ∀ {a : List Run} {p : Option Char}, RunsOk p a → Linked links a →
    PartsIn src (runsText a) → ∃ ns, RunNodes src links a ns
  | [], _, _, _, _ => ⟨[], rfl⟩
  | .link t :: r, _, hs, hl, h => by
    rw [runsText_cons, runText] at h
    obtain ⟨b, hb⟩ := runNodes_exist hs.2.2.2 (fun t ht => hl t (by simp [ht])) (partsIn_infix h (List.suffix_append _ _).isInfix)
    obtain ⟨cs, hc⟩ := partNodes_exist (link_not_mem hs.1 '\n' (by decide) (by decide)) (partsIn_infix h ⟨['['], [']'] ++ runsText r, by simp⟩)
    obtain ⟨p, hp⟩ := standsAt_of_infix (h (['['] ++ t ++ [']']) (link_nl hs.1) (by simp) ⟨[], runsText r, by simp⟩)
    obtain ⟨⟨url, title⟩, he⟩ := Option.isSome_iff_exists.1 (hl t (by simp))
    exact ⟨_, p, cs, b, _, url, title, rfl, he, hc, hp, .inl rfl, hb⟩
  | .direct image t url :: r, _, hs, hl, h => by
    rw [runsText_cons] at h
    obtain ⟨b, hb⟩ := runNodes_exist hs.2.2.2 (fun t ht => hl t (by simp [ht])) (partsIn_infix h (List.suffix_append _ _).isInfix)
    obtain ⟨cs, hc⟩ := partNodes_exist (link_not_mem hs.1.1 '\n' (by decide) (by decide))
      (partsIn_infix h ⟨bangOf image ++ ['['], [']'] ++ (['('] ++ url ++ [')']) ++ runsText r, by simp [runText]⟩)
    obtain ⟨p, hp⟩ := standsAt_of_infix (h (runText (.direct image t url)) (direct_nl hs.1) (by simp [runText]) ⟨[], runsText r, by simp⟩)
    exact ⟨_, p, cs, b, rfl, hc, hp, hb⟩
  | .span s :: r, _, hs, hl, h => by
    rw [runsText_cons] at h
    obtain ⟨a, ha⟩ := spanNodes_exist hs.1 (partsIn_infix h (List.prefix_append _ _).isInfix)
    obtain ⟨b, hb⟩ := runNodes_exist hs.2.2 (fun t ht => hl t (by simp [ht])) (partsIn_infix h (List.suffix_append _ _).isInfix)
    exact ⟨a ++ b, a, b, rfl, ha, hb⟩
  | .emph d strong inner :: r, _, hs, hl, h => by
    rw [runsText_cons, runText] at h
    obtain ⟨b, hb⟩ := runNodes_exist hs.2.2.2.2 (fun t ht => hl t (by simp [ht])) (partsIn_infix h (List.suffix_append _ _).isInfix)
    obtain ⟨cs, hc⟩ := spansNodes_exist hs.2.1 (partsIn_infix h ⟨emphMark d strong, emphMark d strong ++ runsText r, by simp⟩)
    have hm := h (emphMark d strong) (mark_nl hs.1 strong) (by cases strong <;> simp [emphMark])
      ⟨[], spansText inner ++ emphMark d strong ++ runsText r, by simp⟩
    obtain ⟨p, hp⟩ := standsAt_of_infix hm
    exact ⟨_, p, cs, b, emphMark d strong, rfl, hc, hp, List.prefix_rfl, by cases strong <;> simp [emphMark], hb⟩

theorem lineNodes_exist {src : List Char} {links : LinkMap} (ls : List (List Char)) (ha : ∃ a, ContentReads ls a ∧ Linked links a)
    (h : ∀ l ∈ ls, l <:+: src) : ∃ ns, LineNodes src links ls ns := by
  obtain ⟨a, ha, hl⟩ := ha
  obtain ⟨ns, hn⟩ := runNodes_exist ha.2 hl (ha.1 ▸ partsIn_lines h)
  exact ⟨ns, a, ha, hn⟩

theorem blockNode_exists {src : List Char} {links : LinkMap} {b : CoreBlock} (hc : HasContent links b) (hd : b.isDefinition = false) (h : BlockIn src b) : ∃ n, BlockNode src links b n := by
  cases b with
  | heading level ls =>
    obtain ⟨ns, hn⟩ := lineNodes_exist ls hc h
    exact ⟨_, ⟨1, 1, 1, 1⟩, ns, rfl, hn⟩
  | paragraph ls =>
    obtain ⟨ns, hn⟩ := lineNodes_exist ls hc h.2
    obtain ⟨p, hp⟩ := standsAt_of_infix h.1
    exact ⟨_, p, ns, rfl, hn, hp⟩
  | code info ls => exact ⟨_, ⟨1, 1, 1, 1⟩, rfl⟩
  | rule => exact ⟨_, ⟨1, 1, 1, 1⟩, rfl⟩
  | definition _ _ => cases hd

theorem blockNodes_exist {src : List Char} {links : LinkMap} : ∀ bs : List CoreBlock, (∀ b ∈ bs, HasContent links b) → (∀ b ∈ bs, b.isDefinition = false) →
    (∀ b ∈ bs, BlockIn src b) → ∃ ns, BlockNodes src links bs ns
  | [], _, _, _ => ⟨[], rfl⟩
  | b :: bs, hc, hd, h => by
    obtain ⟨n, hn⟩ := blockNode_exists (hc b (by simp)) (hd b (by simp)) (h b (by simp))
    obtain ⟨ns, hns⟩ := blockNodes_exist bs (fun x hx => hc x (by simp [hx])) (fun x hx => hd x (by simp [hx])) (fun x hx => h x (by simp [hx]))
    exact ⟨n :: ns, n, ns, rfl, hn, hns⟩

theorem tree_exists {src : List Char} {d : List CoreBlock} (h : ReadsCore src d) : ∃ root, IsTree src d root := by
  have hd := fun b hb => ((readCore_valid h).2 b hb).2
  obtain ⟨h, hc⟩ := h
  unfold readCore at h
  split at h
  · cases h
  · obtain ⟨ns, hn⟩ := blockNodes_exist d hc hd (readLines_in (src := src) _ .none _ ⟨[], by simp [held]⟩ h)
    exact ⟨_, ⟨1, 1, 1, 1⟩, ns, rfl, hn⟩

end Hongdown.Model
