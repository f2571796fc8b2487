import Verif.Lemmas.NestedMarks
import Verif.Props.Fitted

/-!
# Documents whose quotation marks are replaced: C54, C82, C83
-/

namespace Hongdown.Props
open Model Spec

/-! ## C54 -/

/-- **C54 (partial): documents whose quotation marks are replaced.** Full statement and restrictions as for
`c54_read_back_partial`, but straight quotation marks and apostrophes are to be replaced if the options say so;
missing are those in the text of links and images. What holds: there is a document `d1` that is the
document but for straight quotation marks and apostrophes of its text, which are curly, and code spans stay; what is
written is read as `d1` up to line breaks, and formatting it again changes nothing. -/
theorem c54_marks_partial (cx : Cx) (source : List Char) (d : List CoreBlock) (root : Node) (ho : CoreOptions cx.opts) (hcb : cx.callback = none)
    (hu : AsciiLetters cx.uni) (hd : ReadsCore source d) (hf : ∀ b ∈ d, BlockMarks cx b) (ht : IsTree source d root) :
    ∃ d1 d', CurledDoc cx.opts.punct d d1 ∧ ReadsCore (formatDoc (withSource cx source) root).output d' ∧
      SameDoc cx.opts.defaultLanguage d1 d' ∧
      ∀ root', IsTree (formatDoc (withSource cx source) root).output d' root' →
        (formatDoc (withSource cx (formatDoc (withSource cx source) root).output) root').output =
          (formatDoc (withSource cx source) root).output := by
  obtain ⟨hr, hv⟩ := readCore_valid hd
  have hv1 : ∀ b ∈ d.map (curlBlock cx), CoreValid b ∧ b.isDefinition = false := by
    intro b hb
    obtain ⟨c, hc, rfl⟩ := List.mem_map.1 hb
    exact ⟨curlBlock_valid ho.dashes (hv c hc).1, by rw [curl_isDefinition]; exact (hv c hc).2⟩
  have hf1 : ∀ b ∈ d.map (curlBlock cx), BlockFits cx b := by
    intro b hb
    obtain ⟨c, hc, rfl⟩ := List.mem_map.1 hb
    exact curlBlock_fits ho.dashes hu (hv c hc).1 (hf c hc)
  have hc1 : ∀ b ∈ d.map (curlBlock cx), HasContent noLinks b := by
    intro b hb
    obtain ⟨c, hc, rfl⟩ := List.mem_map.1 hb
    exact curlBlock_content ho.dashes (hd.2 c hc)
  have e := format_core hr ho hcb (fun b hb => ⟨(hv b hb).1, blockLinks_marks (hf b hb)⟩) ht
  obtain ⟨d', h1, h2, h3, h4, h5, _⟩ := coreDoc_reads ho hv1 hf1
  rw [e]
  exact ⟨_, d', curlDoc_curled ho.dashes hu (fun b hb => (hv b hb).1), ⟨h1, sameDoc_content h2 hc1⟩, h2, fun root' ht' => by
    rw [format_core_kept h5 ho hcb (fun b hb => ⟨h4 b hb, sameDoc_kept h2 (fun c hc => blockKept_of (hf1 c hc)) b hb⟩) ht', h3]⟩

/-- **C54 (partial): idempotence with quotation marks replaced.** With a parser that agrees with the reader,
formatting twice is formatting once. The same restrictions. -/
theorem c54_marks_twice_partial (cx : Cx) (parse : List Char → Node) (hp : Agrees parse) (source : List Char) (d : List CoreBlock)
    (ho : CoreOptions cx.opts) (hcb : cx.callback = none) (hu : AsciiLetters cx.uni) (hd : ReadsCore source d) (hf : ∀ b ∈ d, BlockMarks cx b) :
    (formatWithWarnings cx parse (formatWithWarnings cx parse source).1).1 = (formatWithWarnings cx parse source).1 := by
  by_cases h0 : source = []
  · subst h0; rfl
  · obtain ⟨_, d', _, h1, _, h3⟩ := c54_marks_partial cx source d (parse source) ho hcb hu hd hf (hp source d hd)
    have e : (formatWithWarnings cx parse source).1 = (formatDoc (withSource cx source) (parse source)).output := by
      rw [formatWithWarnings, if_neg h0]
    rw [e]
    by_cases h : (formatDoc (withSource cx source) (parse source)).output = []
    · rw [h]; rfl
    · rw [formatWithWarnings, if_neg h]
      exact h3 _ (hp _ _ h1)

/-! ## C82 and C83 -/

/-- What the theorems below rest on. -/
theorem marks_tree {cx : Cx} {source : List Char} {d : List TreeBlock} {root : Node} (ho : NestedOptions cx.opts)
    (hcb : cx.callback = none) (hu : AsciiLetters cx.uni) (hd : ReadsAs source d) (hf : ∀ b ∈ blocksLeaves d, BlockMarks cx b)
    (hr : regularBlocks d = true) (hn : follows notBothLists (shownTrees d) = true) (ht : IsDocument source d root) :
    ∃ d', ReadsAs (formatDoc (withSource cx source) root).output d' ∧
      SameDocument cx.opts.defaultLanguage (mapTrees (curlBlock cx) d) d' ∧
      (∀ root', IsDocument (formatDoc (withSource cx source) root).output d' root' →
        (formatDoc (withSource cx (formatDoc (withSource cx source) root).output) root').output =
          (formatDoc (withSource cx source) root).output) ∧
      (FitWidth cx.width → FitsBlocks (FitsOrWord cx.width cx.opts.lineWidth) 0 0 d') :=
  marks_sound ho hcb hu hd.1 (docSound_of hd) hf hr hn ht

/-- **C82 (partial): documents whose quotation marks are replaced.** Full statement and restrictions as for
`c82_read_back_partial`, but straight quotation marks and apostrophes are to be replaced if the options say so;
missing are those in the text of links and images. What holds: with the paragraphs, headings and cells
replaced by those that differ only in straight quotation marks and apostrophes, which are curly, what is written for a
document is read as that document, and formatting it again changes nothing. -/
theorem c82_marks_partial (cx : Cx) (source : List Char) (d : List TreeBlock) (root : Node) (ho : NestedOptions cx.opts)
    (hcb : cx.callback = none) (hu : AsciiLetters cx.uni) (hd : ReadsAs source d) (hf : ∀ b ∈ blocksLeaves d, BlockMarks cx b)
    (hr : regularBlocks d = true) (hn : follows notBothLists (shownTrees d) = true) (ht : IsDocument source d root) :
    ∃ (curled : CoreBlock → CoreBlock) (d' : List TreeBlock), (∀ b ∈ blocksLeaves d, CurledBlock cx.opts.punct b (curled b)) ∧
      ReadsAs (formatDoc (withSource cx source) root).output d' ∧
      SameDocument cx.opts.defaultLanguage (mapTrees curled d) d' ∧
      ∀ root', IsDocument (formatDoc (withSource cx source) root).output d' root' →
        (formatDoc (withSource cx (formatDoc (withSource cx source) root).output) root').output =
          (formatDoc (withSource cx source) root).output := by
  obtain ⟨d', h1, h2, h3, _⟩ := marks_tree ho hcb hu hd hf hr hn ht
  exact ⟨curlBlock cx, d', fun b hb => curlBlock_curled ho.dashes hu ((readsAs_ok hd).1 b hb).1, h1, h2, h3⟩

/-- **C82 (partial): idempotence with quotation marks replaced.** With a parser that agrees with the reader,
formatting twice is formatting once. The same restrictions. -/
theorem c82_marks_twice_partial (cx : Cx) (parse : List Char → Node) (hp : AgreesTree parse) (source : List Char) (d : List TreeBlock)
    (ho : NestedOptions cx.opts) (hcb : cx.callback = none) (hu : AsciiLetters cx.uni) (hd : ReadsAs source d)
    (hf : ∀ b ∈ blocksLeaves d, BlockMarks cx b) (hr : regularBlocks d = true) (hn : follows notBothLists (shownTrees d) = true) :
    (formatWithWarnings cx parse (formatWithWarnings cx parse source).1).1 = (formatWithWarnings cx parse source).1 := by
  by_cases h0 : source = []
  · subst h0; rfl
  · obtain ⟨_, d', _, h1, _, h3⟩ := c82_marks_partial cx source d (parse source) ho hcb hu hd hf hr hn (hp source d hd)
    have e : (formatWithWarnings cx parse source).1 = (formatDoc (withSource cx source) (parse source)).output := by
      rw [formatWithWarnings, if_neg h0]
    rw [e]
    by_cases h : (formatDoc (withSource cx source) (parse source)).output = []
    · rw [h]; rfl
    · rw [formatWithWarnings, if_neg h]
      exact h3 _ (hp _ _ h1)

/-- **C83 (partial): the paragraphs of a formatted document whose quotation marks are replaced fit.** As
`c83_nested_partial`; the width is that of the text with its marks replaced. -/
theorem c83_marks_partial (cx : Cx) (source : List Char) (d d' : List TreeBlock) (root : Node) (ho : NestedOptions cx.opts)
    (hcb : cx.callback = none) (hu : AsciiLetters cx.uni) (hd : ReadsAs source d) (hf : ∀ b ∈ blocksLeaves d, BlockMarks cx b)
    (hr : regularBlocks d = true) (hn : follows notBothLists (shownTrees d) = true) (ht : IsDocument source d root) (hw : FitWidth cx.width)
    (hd' : ReadsAs (formatDoc (withSource cx source) root).output d') :
    FitsBlocks (FitsOrWord cx.width cx.opts.lineWidth) 0 0 d' := by
  obtain ⟨e, h1, _, _, h4⟩ := marks_tree ho hcb hu hd hf hr hn ht
  rw [readsAs_unique hd' h1]
  exact h4 hw

/-! ## An example -/

/-- A document with straight quotation marks. -/
def exMarksSource : List Char := "\"A\" title\n=========\n\nHe said \"now *go*, it's\nfine\" and `\"x\"`.\n\n- \"one\"\n\n| \"a\" |\n| --- |\n| b   |\n".toList

def exMarksText : CoreBlock := .paragraph ["He said \"now *go*, it's".toList, "fine\" and `\"x\"`.".toList]

def exMarksRuns : List Run := [.span (.text "He said \"now ".toList), .emph '*' false [.text "go".toList], .span (.text ", it's\nfine\" and ".toList),
  .span (.code "\"x\"".toList), .span (.text ".".toList)]

def exMarksBlocks : List TreeBlock :=
  [.leaf false (.heading 1 ["\"A\" title".toList]), .leaf true exMarksText,
    .list true none true [[.leaf false (.paragraph ["\"one\"".toList])]],
    .table true [.none] [["\"a\"".toList], ["b".toList]]]

theorem exMarksText_content (links : LinkMap) : HasContent links exMarksText :=
  ⟨exMarksRuns, by decide +kernel, fun t ht => absurd ht (by simp [exMarksRuns])⟩

theorem exMarksSource_reads : ReadsAs exMarksSource exMarksBlocks :=
  ⟨by decide +kernel, by decide +kernel, by decide +kernel, by decide +kernel,
    content_but (exMarksText_content _) (by decide +kernel), 30, by decide +kernel⟩

theorem exLetters : AsciiLetters asciiUni := by
  intro c hc
  have : c.isAlphanum = true := by simp [Char.isAlphanum, hc]
  exact ⟨hc, this⟩

/-- Text does not become shorter. -/
theorem curledLines_length {o : PunctOpts} {ls ls' : List (List Char)} (h : CurledLines o ls ls') :
    (joinWith ['\n'] ls').length = (joinWith ['\n'] ls).length := by
  have text : ∀ {s t : List Char}, CurledText o s t → t.length = s.length := fun h => (pairs_length (curledText_to h)).symm
  have span : ∀ {s t : Span}, CurledSpan o s t → (spanText t).length = (spanText s).length := by
    intro s t h
    cases s <;> cases t
    · exact text h
    · exact absurd h id
    · exact absurd h id
    · rw [show _ = _ from h]
  have spans : ∀ {r r' : List Span}, CurledSpans o r r' → (spansText r').length = (spansText r).length := by
    intro r
    induction r with
    | nil => intro r' h; cases r' with
      | nil => rfl
      | cons _ _ => exact absurd h id
    | cons s r ih => intro r' h; cases r' with
      | nil => exact absurd h id
      | cons s' r' => rw [spansText_cons, spansText_cons, List.length_append, List.length_append, span h.1, ih h.2]
  have run : ∀ {r r' : Run}, CurledRun o r r' → (runText r').length = (runText r).length := by
    intro r r' h
    cases r <;> cases r'
    all_goals first
      | exact absurd h id
      | exact span h
      | (obtain ⟨rfl, rfl, h⟩ := h; simp only [runText, List.length_append, spans h])
      | (obtain ⟨rfl, rfl, rfl⟩ := h; rfl)
      | (rw [show _ = _ from h])
  have runs : ∀ {a a' : List Run}, CurledRuns o a a' → (runsText a').length = (runsText a).length := by
    intro a
    induction a with
    | nil => intro a' h; cases a' with
      | nil => rfl
      | cons _ _ => exact absurd h id
    | cons s r ih => intro a' h; cases a' with
      | nil => exact absurd h id
      | cons s' r' => rw [runsText_cons, runsText_cons, List.length_append, List.length_append, run h.1, ih h.2]
  obtain ⟨_, a, a', h1, h2, h3⟩ := h
  rw [← h1.1, ← h2.1, runs h3]

theorem exMarks_kept (ls : List (List Char)) (a : List Run) (ha : ContentReads ls a) (h : a.flatMap linkWords = [])
    (hx : ∀ r ∈ a, ¬ OtherSite r) : LinkMarksKept (exWith defaultOptions) ls := by
  intro b hb
  obtain rfl := c54_content ls _ _ ha hb
  rw [h]
  exact ⟨⟨fun hm => absurd hm (by simp), fun _ => ⟨rfl, fun c hc => hc⟩⟩, hx⟩

theorem exMarks_blocks : ∀ b ∈ blocksLeaves exMarksBlocks, BlockMarks (exWith defaultOptions) b := by
  have e : blocksLeaves exMarksBlocks = [.heading 1 ["\"A\" title".toList], exMarksText, .paragraph ["\"one\"".toList],
    .paragraph ["\"a\"".toList], .paragraph ["b".toList]] := by decide +kernel
  rw [e]
  intro b hb
  simp only [List.mem_cons, List.not_mem_nil, or_false] at hb
  rcases hb with rfl | rfl | rfl | rfl | rfl
  · refine ⟨exMarks_kept _ [.span (.text "\"A\" title".toList)] (by decide +kernel) rfl (by simp [OtherSite]), fun ls' h => ?_⟩
    have h1 := curledLines_length h
    have h2 := h.1
    cases ls' with
    | nil => cases h2
    | cons l r =>
      cases r with
      | cons _ _ => simp at h2
      | nil =>
        show 0 < (joinWith [' '] [l]).length
        rw [joinWith] at h1 ⊢
        rw [h1]; decide
  · exact exMarks_kept _ exMarksRuns (by decide +kernel) rfl (by simp [OtherSite, exMarksRuns])
  · exact exMarks_kept _ [.span (.text "\"one\"".toList)] (by decide +kernel) rfl (by simp [OtherSite, exMarksRuns])
  · exact exMarks_kept _ [.span (.text "\"a\"".toList)] (by decide +kernel) rfl (by simp [OtherSite, exMarksRuns])
  · exact exMarks_kept _ [.span (.text "b".toList)] (by decide +kernel) rfl (by simp [OtherSite, exMarksRuns])

/-- What the theorems say of the example: whatever its tree, what is written for it stays as it is. -/
example (parse : List Char → Node) (hp : AgreesTree parse) :
    (formatWithWarnings (exWith defaultOptions) parse (formatWithWarnings (exWith defaultOptions) parse exMarksSource).1).1 =
      (formatWithWarnings (exWith defaultOptions) parse exMarksSource).1 :=
  c82_marks_twice_partial _ parse hp _ _ exOptions_nested rfl exLetters exMarksSource_reads exMarks_blocks (by decide +kernel) (by decide +kernel)

def exMarksTree : Node := .mk .document ⟨1, 1, 11, 9⟩
  [.mk (.heading 1) ⟨1, 1, 2, 9⟩ [.mk (.text "\"A\" title".toList) ⟨1, 1, 1, 9⟩ []],
    .mk .paragraph ⟨4, 1, 5, 16⟩ [.mk (.text "He said \"now ".toList) ⟨4, 1, 4, 13⟩ [],
      .mk .emph ⟨4, 14, 4, 17⟩ [.mk (.text "go".toList) ⟨4, 15, 4, 16⟩ []], .mk (.text ", it's".toList) ⟨4, 18, 4, 23⟩ [],
      .mk .softBreak ⟨4, 24, 4, 24⟩ [], .mk (.text "fine\" and ".toList) ⟨5, 1, 5, 10⟩ [],
      .mk (.code "\"x\"".toList) ⟨5, 11, 5, 15⟩ [], .mk (.text ".".toList) ⟨5, 16, 5, 16⟩ []],
    .mk (.list .bullet true) ⟨7, 1, 7, 7⟩ [.mk .item ⟨7, 1, 7, 7⟩ [.mk .paragraph ⟨7, 3, 7, 7⟩ [.mk (.text "\"one\"".toList) ⟨7, 3, 7, 7⟩ []]]],
    .mk (.table [.none]) ⟨9, 1, 11, 7⟩
      [.mk .tableRow ⟨9, 1, 9, 7⟩ [.mk .tableCell ⟨9, 2, 9, 6⟩ [.mk (.text "\"a\"".toList) ⟨9, 3, 9, 5⟩ []]],
        .mk .tableRow ⟨11, 1, 11, 7⟩ [.mk .tableCell ⟨11, 2, 11, 6⟩ [.mk (.text "b".toList) ⟨11, 3, 11, 3⟩ []]]]]

/-- The quotation marks that stand around a word with the emphasis are replaced one by one, and those of the code span stay. -/
example : (formatDoc (withSource (exWith defaultOptions) exMarksSource) exMarksTree).output =
    "“A” title\n=========\n\nHe said “now *go*, it's\nfine” and `\"x\"`.\n\n -  “one”\n\n| “a” |\n| --- |\n| b   |\n".toList := by decide +kernel

end Hongdown.Props
