import Verif.Lemmas.NestedLinks
import Verif.Props.Core

/-!
# Formatting and reading back documents with nested lists, block quotes, alerts and tables: C82
-/

namespace Hongdown.Props
open Model Spec

/-- The default options are among those of `c82_read_back_partial`. -/
theorem exOptions_nested : NestedOptions defaultOptions where
  toCoreOptions := exOptions_core
  bullet := by decide
  trailing := by decide
  indent := by decide
  orderedIndent := by decide
  unorderedMarker := by decide
  oddMarker := by decide
  evenMarker := by decide

/-- A document with nested lists. -/
def exTreeSource : List Char :=
  "Title\n=====\n\n* *one\n  two* `x y`\n* three\n  1. four\n\n     ~~~ rust\n     let x = 1;\n\n     ~~~\n  2. five\n\n  six\n\nwords\n".toList

def exTreeBlocks : List TreeBlock :=
  [.leaf false (.heading 1 ["Title".toList]),
    .list true none false
      [[.leaf false (.paragraph ["*one".toList, "two* `x y`".toList])],
        [.leaf false (.paragraph ["three".toList]),
          .list false (some 1) false
            [[.leaf false (.paragraph ["four".toList]), .leaf true (.code "rust".toList ["let x = 1;".toList, []])],
              [.leaf false (.paragraph ["five".toList])]],
          .leaf true (.paragraph ["six".toList])]],
    .leaf true (.paragraph ["words".toList])]

/-- The content of the first item. -/
theorem exTreeContent_reads (links : LinkMap) : HasContent links (.paragraph ["*one".toList, "two* `x y`".toList]) :=
  ⟨[.emph '*' false [.text "one\ntwo".toList], .span (.text " ".toList), .span (.code "x y".toList)], by decide +kernel,
    fun t ht => absurd ht (by simp)⟩

/-- Reading is not trivial. -/
theorem exTreeSource_reads : ReadsAs exTreeSource exTreeBlocks :=
  ⟨by decide +kernel, by decide +kernel, by decide +kernel, by decide +kernel,
    content_but (exTreeContent_reads _) (by decide +kernel), 30, by decide +kernel⟩

/-- A line of text after an item would belong to it. -/
example : readTree 30 (.none false) (splitOn '\n' "- one\ntwo\n".toList) = none := by decide +kernel

/-- **C82: every document that is read is read in one way and has a tree**, so the theorems below
are not about nothing. -/
theorem c82_tree (source : List Char) (d : List TreeBlock) (h : ReadsAs source d) :
    (∃ root, IsDocument source d root) ∧ ∀ d', ReadsAs source d' → d' = d :=
  ⟨document_exists h, fun _ h' => readsAs_unique h' h⟩

/-- **C82 (partial).** Full statement: for all options and all documents that are read. Missing: the
restrictions of C54 on the options; list markers that are not four columns wide; items that do not
begin with a paragraph, and blocks in items as in `mayStandAfter` (`c82_tight_code_false`,
`c82_two_lists_false` and `c82_code_list_false` refute the claim for others); ordered lists that do
not begin with 1 or have a hundred items (`c43_start_false`, `c72_wide_false`); two lists of one kind
without another block between them (`c73_adjacent_false`); block quotes in items and in block quotes,
lists in block quotes, headings in block quotes (`c82_quote_heading_false`), empty block quotes; the same
of alerts, and alerts with a title (`c81_title_false`);
tables in items and in block quotes, rows with another number of cells than there are columns, pipes in
cells. What holds: what is written for a
document is read as the same document up to line breaks and blank lines, with the same nesting, the
same tight and loose lists, the same kinds of alerts, the same cells and alignments of tables, and links to the same places, and whatever tree a parser gives for that,
formatting it again changes nothing. Definitions may move, and those that no link uses are dropped. -/
theorem c82_read_back_partial (cx : Cx) (source : List Char) (d : List TreeBlock) (root : Node) (ho : NestedOptions cx.opts)
    (hcb : cx.callback = none) (hd : ReadsAs source d) (hf : ∀ b ∈ blocksLeaves d, BlockFits cx b) (hr : regularBlocks d = true)
    (hn : follows notBothLists (shownTrees d) = true) (ht : IsDocument source d root) :
    ∃ d', ReadsAs (formatDoc (withSource cx source) root).output d' ∧ SameDocument cx.opts.defaultLanguage d d' ∧
      ∀ root', IsDocument (formatDoc (withSource cx source) root).output d' root' →
        (formatDoc (withSource cx (formatDoc (withSource cx source) root).output) root').output =
          (formatDoc (withSource cx source) root).output := by
  have hg := docGood_of hd hf hr hn
  have hs : shapedBlocks (shownTrees d) = true :=
    shapedBlocks_iff.2 fun b hb => shapedBlocks_iff.1 (shapedBlocks_of_regular d hr hg.well) b (mem_shownTrees.1 hb).1
  have e := format_placed ho hcb hd (fits_kept hf) hs (hg.ends ho) ht
  obtain ⟨d', h1, h2, h3, h4, h5, _⟩ := treeDoc_reads ho hg
  rw [e]
  exact ⟨d', h1, h2, fun root' ht' => by rw [format_placed ho hcb h1 (sameDocument_kept h2 (fits_kept hf)) h4 h5 ht', h3]⟩

/-- **C82 (partial): idempotence.** With a parser that agrees with the reader, formatting twice is
formatting once. The same restrictions. -/
theorem c82_twice_partial (cx : Cx) (parse : List Char → Node) (hp : AgreesTree parse) (source : List Char) (d : List TreeBlock)
    (ho : NestedOptions cx.opts) (hcb : cx.callback = none) (hd : ReadsAs source d) (hf : ∀ b ∈ blocksLeaves d, BlockFits cx b)
    (hr : regularBlocks d = true) (hn : follows notBothLists (shownTrees d) = true) :
    (formatWithWarnings cx parse (formatWithWarnings cx parse source).1).1 = (formatWithWarnings cx parse source).1 := by
  by_cases h0 : source = []
  · subst h0; rfl
  · obtain ⟨d', h1, _, h3⟩ := c82_read_back_partial cx source d (parse source) ho hcb hd hf hr hn (hp source d hd)
    have e : (formatWithWarnings cx parse source).1 = (formatDoc (withSource cx source) (parse source)).output := by
      rw [formatWithWarnings, if_neg h0]
    rw [e]
    by_cases h : (formatDoc (withSource cx source) (parse source)).output = []
    · rw [h]; rfl
    · rw [formatWithWarnings, if_neg h]
      exact h3 _ (hp _ _ h1)

/-- The premise on the parser can be met. -/
theorem c82_parser : ∃ parse, AgreesTree parse := by
  classical
  refine ⟨fun s => if h : ∃ root, ∃ d, ReadsAs s d ∧ IsDocument s d root then h.choose else .mk .document ⟨1, 1, 1, 1⟩ [], ?_⟩
  intro s d hd
  obtain ⟨root, hr⟩ := document_exists hd
  have h : ∃ root, ∃ d, ReadsAs s d ∧ IsDocument s d root := ⟨root, d, hd, hr⟩
  simp only [dif_pos h]
  obtain ⟨d', h1, h2⟩ := h.choose_spec
  rw [readsAs_unique hd h1]
  exact h2

/-- What the theorems say of the example. -/
example : regularBlocks exTreeBlocks = true ∧ follows notBothLists (shownTrees exTreeBlocks) = true := by decide +kernel

theorem exTreeSource_written (root : Node) (h : IsDocument exTreeSource exTreeBlocks root) :
    (formatDoc (withSource (exWith defaultOptions) exTreeSource) root).output =
      "Title\n=====\n\n -  *one\n    two* `x y`\n\n -  three\n    1)  four\n\n        ~~~~ rust\n        let x = 1;\n\n        ~~~~\n\n    2)  five\n\n    six\n\nwords\n".toList := by
  rw [format_placed exOptions_nested rfl exTreeSource_reads (markless_kept (by decide +kernel)) (by decide +kernel) (endsOnce_all (by decide +kernel)) h, placed_none (by decide +kernel)]
  decide +kernel

/-- A document with links. -/
def exLinkSource : List Char :=
  "See [the guide], then\n[Big Book].\n\n[the guide]: https://example.com/guide \"Read me\"\n[big book]: https://example.com/book\n[nowhere]: https://example.com\n\nPart\n----\n\n* one [the guide]\n* two [Other Page]!\n\n[other page]: https://example.com/other\n".toList

def exLinkFirst : CoreBlock := .paragraph ["See [the guide], then".toList, "[Big Book].".toList]
def exLinkSecond : CoreBlock := .paragraph ["one [the guide]".toList]
def exLinkThird : CoreBlock := .paragraph ["two [Other Page]!".toList]

def exLinkBlocks : List TreeBlock :=
  [.leaf false exLinkFirst,
    .leaf true (.definition "the guide".toList ("https://example.com/guide".toList, "Read me".toList)),
    .leaf false (.definition "big book".toList ("https://example.com/book".toList, [])),
    .leaf false (.definition "nowhere".toList ("https://example.com".toList, [])),
    .leaf true (.heading 2 ["Part".toList]),
    .list true none true [[.leaf false exLinkSecond], [.leaf false exLinkThird]],
    .leaf true (.definition "other page".toList ("https://example.com/other".toList, []))]

def exLinkRuns : List Run :=
  [.span (.text "See ".toList), .link "the guide".toList, .span (.text ", then\n".toList), .link "Big Book".toList, .span (.text ".".toList)]

theorem exLinkFirst_reads : ContentReads ["See [the guide], then".toList, "[Big Book].".toList] exLinkRuns := by decide +kernel

theorem exLinkSecond_reads : ContentReads ["one [the guide]".toList] [.span (.text "one ".toList), .link "the guide".toList] := by decide +kernel

theorem exLinkThird_reads : ContentReads ["two [Other Page]!".toList]
    [.span (.text "two ".toList), .link "Other Page".toList, .span (.text "!".toList)] := by decide +kernel

theorem exLink_leaf {b : CoreBlock} (h : b ∈ blocksLeaves exLinkBlocks) : textOnly b = true ∨ b = exLinkFirst ∨ b = exLinkSecond ∨ b = exLinkThird := by
  have : (blocksLeaves exLinkBlocks).all (fun b => textOnly b || (decide (b = exLinkFirst) || (decide (b = exLinkSecond) || decide (b = exLinkThird)))) = true := by
    decide +kernel
  simpa using List.all_eq_true.1 this b h

theorem exLink_linked : Linked (linksOf exLinkBlocks) exLinkRuns := by
  intro t ht
  have : t = "the guide".toList ∨ t = "Big Book".toList := by simpa [exLinkRuns] using ht
  rcases this with rfl | rfl <;> decide +kernel

theorem exLinkSource_reads : ReadsAs exLinkSource exLinkBlocks := by
  refine ⟨by decide +kernel, by decide +kernel, by decide +kernel, by decide +kernel, fun b hb => ?_, 30, by decide +kernel⟩
  rcases exLink_leaf hb with h | rfl | rfl | rfl
  · exact textOnly_content h
  · exact ⟨_, exLinkFirst_reads, exLink_linked⟩
  · refine ⟨_, exLinkSecond_reads, fun t ht => ?_⟩
    have : t = "the guide".toList := by simpa using ht
    rw [this]; decide +kernel
  · refine ⟨_, exLinkThird_reads, fun t ht => ?_⟩
    have : t = "Other Page".toList := by simpa using ht
    rw [this]; decide +kernel

/-- The references of a block of the example. -/
def exLinkRefs (b : CoreBlock) : List Ref :=
  if b = exLinkFirst then [⟨"the guide".toList, "https://example.com/guide".toList, "Read me".toList⟩, ⟨"Big Book".toList, "https://example.com/book".toList, []⟩]
  else if b = exLinkSecond then [⟨"the guide".toList, "https://example.com/guide".toList, "Read me".toList⟩]
  else if b = exLinkThird then [⟨"Other Page".toList, "https://example.com/other".toList, []⟩]
  else []

theorem exLinkRefs_eq : ∀ b ∈ blocksLeaves exLinkBlocks, leafRefs (linksOf exLinkBlocks) b = exLinkRefs b := by
  intro b hb
  rcases exLink_leaf hb with h | rfl | rfl | rfl
  · rw [leafRefs_plain h]
    have hne : ∀ c, textOnly c = false → b ≠ c := by rintro c hc rfl; rw [h] at hc; cases hc
    rw [exLinkRefs, if_neg (hne _ (by decide +kernel)), if_neg (hne _ (by decide +kernel)), if_neg (hne _ (by decide +kernel))]
  · rw [exLinkFirst, leafRefs_paragraph exLinkFirst_reads]; decide +kernel
  · rw [exLinkSecond, leafRefs_paragraph exLinkSecond_reads]; decide +kernel
  · rw [exLinkThird, leafRefs_paragraph exLinkThird_reads]; decide +kernel

/-- The definitions are written before the next section, those of the last section at the end; the
one that is not used is dropped. -/
theorem exLinkSource_written (root : Node) (h : IsDocument exLinkSource exLinkBlocks root) :
    (formatDoc (withSource (exWith defaultOptions) exLinkSource) root).output =
      "See [the guide], then\n[Big Book].\n\n[the guide]: https://example.com/guide \"Read me\"\n[Big Book]: https://example.com/book\n\n\nPart\n----\n\n -  one [the guide]\n -  two [Other Page]!\n\n[Other Page]: https://example.com/other\n".toList := by
  rw [format_placed exOptions_nested rfl exLinkSource_reads (markless_kept (by decide +kernel)) (by decide +kernel) (endsOnce_all (by decide +kernel)) h, placed,
    place_eq (refs := fun b => (leaves b).flatMap exLinkRefs) _ _ _ (fun b hb => flatMap_congr_mem fun l hl =>
      exLinkRefs_eq l (blocksLeaves_mem.2 ⟨b, (mem_shownTrees.1 hb).1, hl⟩))]
  decide +kernel

example : regularBlocks exLinkBlocks = true ∧ follows notBothLists (shownTrees exLinkBlocks) = true := by decide +kernel

/-- A document with block quotes. -/
def exQuoteSource : List Char :=
  "Words\n> *one\n> two* [the guide]\n>\n>~~~ rust\n> let x = 1;\n>\n> ~~~\n> * * *\n\n> other\n* item\n\n[the guide]: https://example.com\n".toList

def exQuotePar : CoreBlock := .paragraph ["*one".toList, "two* [the guide]".toList]

def exQuoteBlocks : List TreeBlock :=
  [.leaf false (.paragraph ["Words".toList]),
    .quote false none [exQuotePar, .code "rust".toList ["let x = 1;".toList, []], .rule],
    .quote true none [.paragraph ["other".toList]],
    .list false none true [[.leaf false (.paragraph ["item".toList])]],
    .leaf true (.definition "the guide".toList ("https://example.com".toList, []))]

def exQuoteRuns : List Run := [.emph '*' false [.text "one\ntwo".toList], .span (.text " ".toList), .link "the guide".toList]

theorem exQuotePar_reads : ContentReads ["*one".toList, "two* [the guide]".toList] exQuoteRuns := by decide +kernel

theorem exQuoteSource_reads : ReadsAs exQuoteSource exQuoteBlocks :=
  ⟨by decide +kernel, by decide +kernel, by decide +kernel, by decide +kernel,
    content_but (c := exQuotePar) ⟨_, exQuotePar_reads, fun t ht => by
      have : t = "the guide".toList := by simpa [exQuoteRuns] using ht
      rw [this]; decide +kernel⟩ (by decide +kernel), 40, by decide +kernel⟩

example : regularBlocks exQuoteBlocks = true ∧ follows notBothLists (shownTrees exQuoteBlocks) = true := by decide +kernel

/-- The references of a block of the example. -/
def exQuoteRefs (b : CoreBlock) : List Ref :=
  if b = exQuotePar then [⟨"the guide".toList, "https://example.com".toList, []⟩] else []

theorem exQuoteRefs_eq : ∀ b ∈ blocksLeaves exQuoteBlocks, leafRefs (linksOf exQuoteBlocks) b = exQuoteRefs b := by
  intro b hb
  have : (blocksLeaves exQuoteBlocks).all (fun b => textOnly b || decide (b = exQuotePar)) = true := by decide +kernel
  have := List.all_eq_true.1 this b hb
  simp only [Bool.or_eq_true, decide_eq_true_eq] at this
  rcases this with h | rfl
  · rw [leafRefs_plain h, exQuoteRefs, if_neg]
    rintro rfl
    exact absurd h (by decide +kernel)
  · rw [exQuotePar, leafRefs_paragraph exQuotePar_reads]; decide +kernel

theorem exQuoteSource_written (root : Node) (h : IsDocument exQuoteSource exQuoteBlocks root) :
    (formatDoc (withSource (exWith defaultOptions) exQuoteSource) root).output =
      "Words\n\n> *one\n> two* [the guide]\n>\n> ~~~~ rust\n> let x = 1;\n>\n> ~~~~\n>\n>    - - - - - - - - - - - - - - - - - - - - - - - - - - - - - - - - - - - - -\n\n> other\n\n -  item\n\n[the guide]: https://example.com\n".toList := by
  rw [format_placed exOptions_nested rfl exQuoteSource_reads (markless_kept (by decide +kernel)) (by decide +kernel) (endsOnce_all (by decide +kernel)) h, placed,
    place_eq (refs := fun b => (leaves b).flatMap exQuoteRefs) _ _ _ (fun b hb => flatMap_congr_mem fun l hl =>
      exQuoteRefs_eq l (blocksLeaves_mem.2 ⟨b, (mem_shownTrees.1 hb).1, hl⟩))]
  decide +kernel

/-- A quote that could be an alert is not read, nor a line that could belong to a quote. -/
example : readTree 30 (.none false) (splitOn '\n' ">\n> [!NOTE]\n> one\n".toList) = none ∧
    readTree 30 (.none false) (splitOn '\n' "> one\ntwo\n".toList) = none := by decide +kernel

/-- Alerts, in any case, with an empty line after the first and without, and a block quote between. -/
def exAlertSource : List Char :=
  "Words\n> [!NOTE]\n> one\n>two\n\n> plain\n\n> [!Warning]\n>\n>\n> three\n>\n> ~~~\n> [!TIP]\n> ~~~\n* item\n".toList

def exAlertBlocks : List TreeBlock :=
  [.leaf false (.paragraph ["Words".toList]),
    .quote false (some ⟨.note, false⟩) [.paragraph ["one".toList, "two".toList]],
    .quote true none [.paragraph ["plain".toList]],
    .quote true (some ⟨.warning, true⟩) [.paragraph ["three".toList], .code [] ["[!TIP]".toList]],
    .list false none true [[.leaf false (.paragraph ["item".toList])]]]

theorem exAlertSource_reads : ReadsAs exAlertSource exAlertBlocks :=
  ⟨by decide +kernel, by decide +kernel, by decide +kernel, by decide +kernel, content_textOnly (by decide +kernel), 40, by decide +kernel⟩

example : regularBlocks exAlertBlocks = true ∧ follows notBothLists (shownTrees exAlertBlocks) = true := by decide +kernel

theorem exAlertSource_written (root : Node) (h : IsDocument exAlertSource exAlertBlocks root) :
    (formatDoc (withSource (exWith defaultOptions) exAlertSource) root).output =
      "Words\n\n> [!NOTE]\n> one\n> two\n\n> plain\n\n> [!WARNING]\n>\n> three\n>\n> ~~~~\n> [!TIP]\n> ~~~~\n\n -  item\n".toList := by
  rw [format_placed exOptions_nested rfl exAlertSource_reads (markless_kept (by decide +kernel)) (by decide +kernel) (endsOnce_all (by decide +kernel)) h,
    placed_none (by decide +kernel)]
  decide +kernel

/-- An alert with a title is not read, nor one without a space before its kind. -/
example : readTree 30 (.none false) (splitOn '\n' "> [!NOTE] Title\n> one\n".toList) = none ∧
    readTree 30 (.none false) (splitOn '\n' ">[!NOTE]\n> one\n".toList) = none := by decide +kernel

/-- A table, with emphasis, code, a link and an empty cell. -/
def exTableSource : List Char :=
  "Words\n\n|a|long words|\n|:-:|--:|\n| *b* `c` [the guide]||\n|d  |x|\n\n- item\n\n[the guide]: https://example.com\n".toList

def exTableCell : CoreBlock := .paragraph ["*b* `c` [the guide]".toList]

def exTableBlocks : List TreeBlock :=
  [.leaf false (.paragraph ["Words".toList]),
    .table true [.center, .right] [["a".toList, "long words".toList], ["*b* `c` [the guide]".toList, []], ["d".toList, "x".toList]],
    .list true none true [[.leaf false (.paragraph ["item".toList])]],
    .leaf true (.definition "the guide".toList ("https://example.com".toList, []))]

def exTableRuns : List Run :=
  [.emph '*' false [.text "b".toList], .span (.text " ".toList), .span (.code "c".toList), .span (.text " ".toList), .link "the guide".toList]

theorem exTableCell_reads : ContentReads ["*b* `c` [the guide]".toList] exTableRuns := by decide +kernel

theorem exTableSource_reads : ReadsAs exTableSource exTableBlocks :=
  ⟨by decide +kernel, by decide +kernel, by decide +kernel, by decide +kernel,
    content_but (c := exTableCell) ⟨_, exTableCell_reads, fun t ht => by
      have : t = "the guide".toList := by simpa [exTableRuns] using ht
      rw [this]; decide +kernel⟩ (by decide +kernel), 40, by decide +kernel⟩

example : regularBlocks exTableBlocks = true ∧ follows notBothLists (shownTrees exTableBlocks) = true := by decide +kernel

/-- The references of a cell or block of the example. -/
def exTableRefs (b : CoreBlock) : List Ref :=
  if b = exTableCell then [⟨"the guide".toList, "https://example.com".toList, []⟩] else []

theorem exTableRefs_eq : ∀ b ∈ blocksLeaves exTableBlocks, leafRefs (linksOf exTableBlocks) b = exTableRefs b := by
  intro b hb
  have : (blocksLeaves exTableBlocks).all (fun b => textOnly b || decide (b = exTableCell)) = true := by decide +kernel
  have := List.all_eq_true.1 this b hb
  simp only [Bool.or_eq_true, decide_eq_true_eq] at this
  rcases this with h | rfl
  · rw [leafRefs_plain h, exTableRefs, if_neg]
    rintro rfl
    exact absurd h (by decide +kernel)
  · rw [exTableCell, leafRefs_paragraph exTableCell_reads]; decide +kernel

theorem exTableSource_written (root : Node) (h : IsDocument exTableSource exTableBlocks root) :
    (formatDoc (withSource (exWith defaultOptions) exTableSource) root).output =
      ("Words\n\n|          a          | long words |\n| :-----------------: | ---------: |\n| *b* `c` [the guide] |            |\n" ++
        "|          d          |          x |\n\n -  item\n\n[the guide]: https://example.com\n").toList := by
  rw [format_placed exOptions_nested rfl exTableSource_reads (markless_kept (by decide +kernel)) (by decide +kernel) (endsOnce_all (by decide +kernel)) h, placed,
    place_eq (refs := fun b => (leaves b).flatMap exTableRefs) _ _ _ (fun b hb => flatMap_congr_mem fun l hl =>
      exTableRefs_eq l (blocksLeaves_mem.2 ⟨b, (mem_shownTrees.1 hb).1, hl⟩))]
  decide +kernel

/-- A row with a cell too many is not read, nor a table that ends in the middle of a paragraph. -/
example : readTree 30 (.none false) (splitOn '\n' "| a |\n| - |\n| b | c |\n".toList) = none ∧
    readTree 30 (.none false) (splitOn '\n' "| a |\n| - |\none\n".toList) = none ∧
    (readTree 30 (.none false) (splitOn '\n' "| a |\n| - |\n| b |\n".toList)).isSome = true := by decide +kernel

/-! ### Where it is false -/

theorem exTree_fits : BlockFits (exWith defaultOptions) (.code [] ["x".toList]) := by
  unfold BlockFits InfoFits
  decide +kernel

theorem writes_tree {cx : Cx} {parse : List Char → Node} (hp : AgreesTree parse) {source : List Char} {d : List TreeBlock}
    (ho : NestedOptions cx.opts) (hcb : cx.callback = none) (hd : ReadsAs source d) (hl : (blocksLeaves (shownTrees d)).all (fun b => textOnly b && markless b) = true)
    (hs : shapedBlocks (shownTrees d) = true) (he : (shownTrees d).all (fun b => endsOnce (treeText cx 0 b)) = true) (h0 : source ≠ []) :
    (formatWithWarnings cx parse source).1 = treeDoc cx none false (shownTrees d) := by
  rw [formatWithWarnings, if_neg h0]
  show (formatDoc (withSource cx source) (parse source)).output = _
  have h1 : (blocksLeaves (shownTrees d)).all textOnly = true :=
    List.all_eq_true.2 fun b hb => (Bool.and_eq_true _ _ ▸ List.all_eq_true.1 hl b hb).1
  have h2 : (blocksLeaves (shownTrees d)).all markless = true :=
    List.all_eq_true.2 fun b hb => (Bool.and_eq_true _ _ ▸ List.all_eq_true.1 hl b hb).2
  rw [format_placed ho hcb hd (markless_kept h2) hs (endsOnce_all he) (hp source d hd), placed_plain h1]

/-- **C82 is false** where a code block stands directly after the paragraph of an item: a blank line
is written between (src/serializer/list.rs:260-272), the tight list is loose when it is read back, and
formatting again adds more blank lines. -/
theorem c82_tight_code_false : ¬ ∀ (cx : Cx) (parse : List Char → Node) (source : List Char) (d : List TreeBlock), AgreesTree parse →
    NestedOptions cx.opts → cx.callback = none → ReadsAs source d → (∀ b ∈ blocksLeaves d, BlockFits cx b) →
    (∀ g s t items, d = [.list g s t items] → ∀ it ∈ items, it.head?.any TreeBlock.isPara = true) →
    (∃ d', ReadsAs (formatWithWarnings cx parse source).1 d' ∧ SameDocument cx.opts.defaultLanguage d d') ∨
      (formatWithWarnings cx parse (formatWithWarnings cx parse source).1).1 = (formatWithWarnings cx parse source).1 := by
  intro h
  obtain ⟨parse, hp⟩ := c82_parser
  have h1 : ReadsAs "- a\n  ~~~\n  x\n  ~~~\n- b\n".toList [.list false none true [[.leaf false (.paragraph ["a".toList]), .leaf false (.code [] ["x".toList])],
      [.leaf false (.paragraph ["b".toList])]]] :=
    ⟨by decide +kernel, by decide +kernel, by decide +kernel, by decide +kernel,
    content_textOnly (by decide +kernel), 30, by decide +kernel⟩
  have h2 : ReadsAs " -  a\n\n    ~~~~\n    x\n    ~~~~\n -  b\n".toList [.list false none false [[.leaf false (.paragraph ["a".toList]), .leaf true (.code [] ["x".toList])],
      [.leaf false (.paragraph ["b".toList])]]] :=
    ⟨by decide +kernel, by decide +kernel, by decide +kernel, by decide +kernel,
    content_textOnly (by decide +kernel), 30, by decide +kernel⟩
  have e1 := writes_tree (cx := exWith defaultOptions) hp exOptions_nested rfl h1 (by decide +kernel) (by decide +kernel) (by decide +kernel) (by decide)
  have e2 := writes_tree (cx := exWith defaultOptions) hp exOptions_nested rfl h2 (by decide +kernel) (by decide +kernel) (by decide +kernel) (by decide)
  rw [show treeDoc (exWith defaultOptions) none false _ = " -  a\n\n    ~~~~\n    x\n    ~~~~\n -  b\n".toList by decide +kernel] at e1
  rw [show treeDoc (exWith defaultOptions) none false _ = " -  a\n\n    ~~~~\n    x\n    ~~~~\n\n -  b\n".toList by decide +kernel] at e2
  have := h (exWith defaultOptions) parse _ _ hp exOptions_nested rfl h1 ?_ ?_
  · rw [e1, e2] at this
    rcases this with ⟨d', h3, h4⟩ | this
    · rw [readsAs_unique h3 h2] at h4
      have h4 := h4.1
      simp only [shownTrees, List.filter, TreeBlock.isDefinition, Bool.not_false] at h4
      rw [SameBlocks, SameTree] at h4
      exact absurd h4.1.2.1 (by decide)
    · exact absurd this (by decide +kernel)
  · intro b hb
    have : b = .paragraph ["a".toList] ∨ b = .code [] ["x".toList] ∨ b = .paragraph ["b".toList] := by
      simpa [blocksLeaves, leaves, itemsLeaves] using hb
    rcases this with rfl | rfl | rfl
    · exact markless_lines (by decide +kernel)
    · exact exTree_fits
    · exact markless_lines (by decide +kernel)
  · intro g s t items e
    cases e
    decide

/-- **C82 is false** where a list stands directly after another in an item, even with nothing but
paragraphs and lists: a blank line is written between (src/serializer/list.rs:214-234), the tight
list is loose when it is read back, and formatting again adds more blank lines. -/
theorem c82_two_lists_false : ¬ ∀ (cx : Cx) (parse : List Char → Node) (source : List Char) (d : List TreeBlock), AgreesTree parse →
    NestedOptions cx.opts → cx.callback = none → ReadsAs source d → (∀ b ∈ blocksLeaves d, ∃ ls, b = .paragraph ls) →
    (∃ d', ReadsAs (formatWithWarnings cx parse source).1 d' ∧ SameDocument cx.opts.defaultLanguage d d') ∨
      (formatWithWarnings cx parse (formatWithWarnings cx parse source).1).1 = (formatWithWarnings cx parse source).1 := by
  intro h
  obtain ⟨parse, hp⟩ := c82_parser
  have h1 : ReadsAs "- a\n  - b\n  1. c\n- d\n".toList [.list false none true [[.leaf false (.paragraph ["a".toList]),
      .list false none true [[.leaf false (.paragraph ["b".toList])]], .list false (some 1) true [[.leaf false (.paragraph ["c".toList])]]],
      [.leaf false (.paragraph ["d".toList])]]] :=
    ⟨by decide +kernel, by decide +kernel, by decide +kernel, by decide +kernel,
    content_textOnly (by decide +kernel), 30, by decide +kernel⟩
  have h2 : ReadsAs " -  a\n     -  b\n\n    1)  c\n -  d\n".toList [.list false none false [[.leaf false (.paragraph ["a".toList]),
      .list false none true [[.leaf false (.paragraph ["b".toList])]], .list true (some 1) true [[.leaf false (.paragraph ["c".toList])]]],
      [.leaf false (.paragraph ["d".toList])]]] :=
    ⟨by decide +kernel, by decide +kernel, by decide +kernel, by decide +kernel,
    content_textOnly (by decide +kernel), 30, by decide +kernel⟩
  have e1 := writes_tree (cx := exWith defaultOptions) hp exOptions_nested rfl h1 (by decide +kernel) (by decide +kernel) (by decide +kernel) (by decide)
  have e2 := writes_tree (cx := exWith defaultOptions) hp exOptions_nested rfl h2 (by decide +kernel) (by decide +kernel) (by decide +kernel) (by decide)
  rw [show treeDoc (exWith defaultOptions) none false _ = " -  a\n     -  b\n\n    1)  c\n -  d\n".toList by decide +kernel] at e1
  rw [show treeDoc (exWith defaultOptions) none false _ = " -  a\n     -  b\n\n\n    1)  c\n\n -  d\n".toList by decide +kernel] at e2
  have := h (exWith defaultOptions) parse _ _ hp exOptions_nested rfl h1 ?_
  · rw [e1, e2] at this
    rcases this with ⟨d', h3, h4⟩ | this
    · rw [readsAs_unique h3 h2] at h4
      have h4 := h4.1
      simp only [shownTrees, List.filter, TreeBlock.isDefinition, Bool.not_false] at h4
      rw [SameBlocks, SameTree] at h4
      exact absurd h4.1.2.1 (by decide)
    · exact absurd this (by decide +kernel)
  · intro b hb
    have : b = .paragraph ["a".toList] ∨ b = .paragraph ["b".toList] ∨ b = .paragraph ["c".toList] ∨ b = .paragraph ["d".toList] := by
      simpa [blocksLeaves, leaves, itemsLeaves] using hb
    rcases this with rfl | rfl | rfl | rfl <;> exact ⟨_, rfl⟩

/-- **C82 is false** where a list stands directly after a code block: one blank line is written
between, and two when that is formatted again (src/serializer/list.rs:214-234). The document itself
is kept. -/
theorem c82_code_list_false : ¬ ∀ (cx : Cx) (parse : List Char → Node) (source info : List Char) (a b c : List (List Char)) (gap : Bool), AgreesTree parse →
    NestedOptions cx.opts → cx.callback = none →
    ReadsAs source [.list false none false [[.leaf false (.paragraph a), .leaf true (.code info b), .list gap none true [[.leaf false (.paragraph c)]]]]] →
    BlockFits cx (.code info b) →
    (formatWithWarnings cx parse (formatWithWarnings cx parse source).1).1 = (formatWithWarnings cx parse source).1 := by
  intro h
  obtain ⟨parse, hp⟩ := c82_parser
  have h1 : ReadsAs "- a\n\n  ~~~\n  x\n  ~~~\n  - b\n".toList [.list false none false [[.leaf false (.paragraph ["a".toList]),
      .leaf true (.code [] ["x".toList]), .list false none true [[.leaf false (.paragraph ["b".toList])]]]]] :=
    ⟨by decide +kernel, by decide +kernel, by decide +kernel, by decide +kernel,
    content_textOnly (by decide +kernel), 30, by decide +kernel⟩
  have h2 : ReadsAs " -  a\n\n    ~~~~\n    x\n    ~~~~\n\n     -  b\n".toList [.list false none false [[.leaf false (.paragraph ["a".toList]),
      .leaf true (.code [] ["x".toList]), .list true none true [[.leaf false (.paragraph ["b".toList])]]]]] :=
    ⟨by decide +kernel, by decide +kernel, by decide +kernel, by decide +kernel,
    content_textOnly (by decide +kernel), 30, by decide +kernel⟩
  have e1 := writes_tree (cx := exWith defaultOptions) hp exOptions_nested rfl h1 (by decide +kernel) (by decide +kernel) (by decide +kernel) (by decide)
  have e2 := writes_tree (cx := exWith defaultOptions) hp exOptions_nested rfl h2 (by decide +kernel) (by decide +kernel) (by decide +kernel) (by decide)
  rw [show treeDoc (exWith defaultOptions) none false _ = " -  a\n\n    ~~~~\n    x\n    ~~~~\n\n     -  b\n".toList by decide +kernel] at e1
  rw [show treeDoc (exWith defaultOptions) none false _ = " -  a\n\n    ~~~~\n    x\n    ~~~~\n\n\n     -  b\n".toList by decide +kernel] at e2
  have := h (exWith defaultOptions) parse _ _ _ _ _ _ hp exOptions_nested rfl h1 exTree_fits
  rw [e1, e2] at this
  exact absurd this (by decide +kernel)

/-- **C82 is false** where only a definition stands between two lists of one kind: the definition is
moved (src/serializer/document.rs:160-169,226-230), or dropped where no link uses it, and the lists become one. -/
theorem c82_definition_false : ¬ ∀ (cx : Cx) (parse : List Char → Node) (source : List Char) (d : List TreeBlock), AgreesTree parse →
    NestedOptions cx.opts → cx.callback = none → ReadsAs source d → (∀ b ∈ blocksLeaves d, BlockFits cx b) → regularBlocks d = true →
    follows notBothLists d = true → ∃ d', ReadsAs (formatWithWarnings cx parse source).1 d' ∧ SameDocument cx.opts.defaultLanguage d d' := by
  intro h
  obtain ⟨parse, hp⟩ := c82_parser
  have h1 : ReadsAs "- a\n\n[home page]: https://example.com\n\n- b\n".toList [.list false none true [[.leaf false (.paragraph ["a".toList])]],
      .leaf true (.definition "home page".toList ("https://example.com".toList, [])), .list true none true [[.leaf false (.paragraph ["b".toList])]]] :=
    ⟨by decide +kernel, by decide +kernel, by decide +kernel, by decide +kernel,
    content_textOnly (by decide +kernel), 30, by decide +kernel⟩
  have h2 : ReadsAs " -  a\n\n -  b\n".toList [.list false none false [[.leaf false (.paragraph ["a".toList])], [.leaf false (.paragraph ["b".toList])]]] :=
    ⟨by decide +kernel, by decide +kernel, by decide +kernel, by decide +kernel,
    content_textOnly (by decide +kernel), 30, by decide +kernel⟩
  have e1 := writes_tree (cx := exWith defaultOptions) hp exOptions_nested rfl h1 (by decide +kernel) (by decide +kernel) (by decide +kernel) (by decide)
  rw [show treeDoc (exWith defaultOptions) none false _ = " -  a\n\n -  b\n".toList by decide +kernel] at e1
  obtain ⟨d', h3, h4⟩ := h (exWith defaultOptions) parse _ _ hp exOptions_nested rfl h1 (by
    intro b hb
    have : b = .paragraph ["a".toList] ∨ b = .definition "home page".toList ("https://example.com".toList, []) ∨ b = .paragraph ["b".toList] := by
      simpa [blocksLeaves, leaves, itemsLeaves] using hb
    rcases this with rfl | rfl | rfl <;> first | exact markless_lines (by decide +kernel) | trivial) (by decide +kernel) (by decide +kernel)
  rw [e1] at h3
  rw [readsAs_unique h3 h2] at h4
  have h4 := h4.1
  simp only [shownTrees, List.filter, TreeBlock.isDefinition, CoreBlock.isDefinition, Bool.not_false, Bool.not_true] at h4
  rw [SameBlocks, SameTree] at h4
  exact absurd h4.1.2.1 (by decide)

/-- **C82 is false** for headings in block quotes: they are written without the marker
(src/serializer/document.rs:421-458), so they leave the quote. -/
theorem c82_quote_heading_false : ¬ ∀ (cx : Cx) (parse : List Char → Node) (source : List Char) (d : List TreeBlock), AgreesTree parse →
    NestedOptions cx.opts → cx.callback = none → ReadsAs source d → (∀ b ∈ blocksLeaves d, BlockFits cx b) →
    (∀ b ∈ d, ∃ g a bs, b = .quote g a bs ∧ bs ≠ []) → ∃ d', ReadsAs (formatWithWarnings cx parse source).1 d' ∧ SameDocument cx.opts.defaultLanguage d d' := by
  intro h
  obtain ⟨parse, hp⟩ := c82_parser
  have h1 : ReadsAs "> ### a\n".toList [.quote false none [.heading 3 ["a".toList]]] :=
    ⟨by decide +kernel, by decide +kernel, by decide +kernel, by decide +kernel,
    content_textOnly (by decide +kernel), 30, by decide +kernel⟩
  have h2 : ReadsAs "### a\n".toList [.leaf false (.heading 3 ["a".toList])] :=
    ⟨by decide +kernel, by decide +kernel, by decide +kernel, by decide +kernel,
    content_textOnly (by decide +kernel), 30, by decide +kernel⟩
  have e1 := writes_tree (cx := exWith defaultOptions) hp exOptions_nested rfl h1 (by decide +kernel) (by decide +kernel) (by decide +kernel) (by decide)
  rw [show treeDoc (exWith defaultOptions) none false _ = "### a\n".toList by decide +kernel] at e1
  obtain ⟨d', h3, h4⟩ := h (exWith defaultOptions) parse _ _ hp exOptions_nested rfl h1 (by
    intro b hb
    have : b = .heading 3 ["a".toList] := by simpa [blocksLeaves, leaves] using hb
    rw [this]
    exact ⟨by decide +kernel, markless_lines (by decide +kernel)⟩) (by
    intro b hb
    rw [List.mem_singleton.1 hb]
    exact ⟨_, _, _, rfl, by simp⟩)
  rw [e1] at h3
  rw [readsAs_unique h3 h2] at h4
  have h4 := h4.1
  simp only [shownTrees, List.filter, TreeBlock.isDefinition, CoreBlock.isDefinition, Bool.not_false] at h4
  rw [SameBlocks, SameTree] at h4
  · exact h4.1
  all_goals simp

end Hongdown.Props
