import Verif.Lemmas.OtherSite
import Verif.Props.Marks

/-!
# Links to other sites become references: C91
-/

namespace Hongdown.Props
open Model Spec

/-- What the theorems below rest on. -/
theorem sites_tree {cx : Cx} {source : List Char} {d : List TreeBlock} {root : Node} (ho : NestedOptions cx.opts)
    (hcb : cx.callback = none) (hu : AsciiLetters cx.uni) (hd : ReadsAs source d) (hf : ∀ b ∈ blocksLeaves d, BlockSites cx b)
    (ha : OneAddress (blocksLeaves d)) (hr : regularBlocks d = true) (hn : follows notBothLists (shownTrees d) = true)
    (ht : IsDocument source d root) :
    ∃ d', ReadsAs (formatDoc (withSource cx source) root).output d' ∧
      SameDocument cx.opts.defaultLanguage (mapTrees (curlBlock cx) (refDoc d)) d' ∧
      (∀ root', IsDocument (formatDoc (withSource cx source) root).output d' root' →
        (formatDoc (withSource cx (formatDoc (withSource cx source) root).output) root').output =
          (formatDoc (withSource cx source) root).output) ∧
      (FitWidth cx.width → FitsBlocks (FitsOrWord cx.width cx.opts.lineWidth) 0 0 d') := by
  have hs := docSound_of hd
  have hv := refValid_of hs hf
  exact marks_sound ho hcb hu hd.1 (refDoc_sound hs hv ha) (refDoc_marks hv hf) (refDoc_regular hr) (refDoc_follows hn)
    (refDoc_document hv hs.content ha ht)

/-- **C91 (partial): links to other sites become references that lead to the same addresses.** Full statement:
every document is read back as the document in which inline links to other sites are references by their text, and
every link leads where it led. Restrictions: those of `c82_marks_partial` on the constructs; links to other sites with the same
text have the same address (`c91_address_false` shows that this is needed), have no titles and are not in emphasis. What holds: with
the paragraphs, headings and cells replaced by those without the addresses, and straight quotation marks and apostrophes replaced
as in `c82_marks_partial`, what is written is read as that document; every link to another site has a definition with its
address, and every reference has the one it had; formatting again changes nothing. -/
theorem c91_sites_partial (cx : Cx) (source : List Char) (d : List TreeBlock) (root : Node) (ho : NestedOptions cx.opts)
    (hcb : cx.callback = none) (hu : AsciiLetters cx.uni) (hd : ReadsAs source d) (hf : ∀ b ∈ blocksLeaves d, BlockSites cx b)
    (ha : OneAddress (blocksLeaves d)) (hr : regularBlocks d = true) (hn : follows notBothLists (shownTrees d) = true)
    (ht : IsDocument source d root) :
    ∃ (referred curled : CoreBlock → CoreBlock) (d' : List TreeBlock), (∀ b ∈ blocksLeaves d, ReferenceBlock b (referred b)) ∧
      (∀ b ∈ blocksLeaves (mapTrees referred d), CurledBlock cx.opts.punct b (curled b)) ∧
      ReadsAs (formatDoc (withSource cx source) root).output d' ∧
      SameBlocks cx.opts.defaultLanguage (shownTrees (mapTrees curled (mapTrees referred d))) (shownTrees d') ∧
      (∀ b ∈ blocksLeaves d, ∀ t url, LeadsTo t url b → linksOf d' t = some (url, [])) ∧
      SameLinks (blocksLeaves d) (linksOf d) (linksOf d') ∧
      ∀ root', IsDocument (formatDoc (withSource cx source) root).output d' root' →
        (formatDoc (withSource cx (formatDoc (withSource cx source) root).output) root').output =
          (formatDoc (withSource cx source) root).output := by
  obtain ⟨d', h1, h2, h3, _⟩ := sites_tree ho hcb hu hd hf ha hr hn ht
  have hs := docSound_of hd
  have hv := refValid_of hs hf
  have htame := curl_tame (cx := cx) ho.dashes
  have hvr := (refDoc_sound hs hv ha).valid
  have hlead := refDoc_leads hv hs.content ha
  have hlinks : ∀ t b, b ∈ blocksLeaves d → HasLink t (curlBlock cx (refBlock b)) → linksOf d' t = linksOf (refDoc d) t := by
    intro t b hb ht
    have := h2.2 (curlBlock cx (refBlock b)) (by
      rw [blocksLeaves_map htame _ hvr, refDoc_leaves hv, List.map_append]
      exact List.mem_append_left _ (List.mem_map_of_mem (List.mem_map_of_mem hb))) t ht
    rw [this, linksOf_map htame hvr]
  have hasLink : ∀ {t b}, b ∈ blocksLeaves d → HasLink t (refBlock b) → HasLink t (curlBlock cx (refBlock b)) := by
    intro t b hb ht
    have lines : ∀ {ls : List (List Char)}, (∃ a, ContentReads ls a ∧ Run.link t ∈ a) → ∃ a, ContentReads (curlLines cx ls) a ∧ Run.link t ∈ a := by
      rintro ls ⟨a, ha, hm⟩
      exact ⟨_, curlLines_content ho.dashes ha, List.mem_map.2 ⟨.link t, hm, rfl⟩⟩
    cases b with
    | heading _ ls => exact lines ht
    | paragraph ls => exact lines ht
    | _ => exact absurd ht id
  refine ⟨refBlock, curlBlock cx, d', fun b hb => refBlock_reference (hs.valid b hb), ?_, h1, ?_, ?_, ?_, h3⟩
  · rw [blocksLeaves_map ref_tame d hv]
    intro b hb
    obtain ⟨c, hc, rfl⟩ := List.mem_map.1 hb
    exact curlBlock_curled ho.dashes hu (refBlock_valid (hv c hc))
  · have := h2.1
    rwa [shownTrees_map htame, refDoc_shown, ← shownTrees_map ref_tame, ← shownTrees_map htame] at this
  · intro b hb t url ht
    refine (hlinks t b hb (hasLink hb ?_)).trans ((hlead b hb).site t url ht)
    have lines : ∀ {ls : List (List Char)}, (∃ a, ContentReads ls a ∧ Run.direct false t url ∈ a ∧ external url) →
        ∃ a, ContentReads (refLines ls) a ∧ Run.link t ∈ a := by
      rintro ls ⟨a, ha, hm, hx⟩
      exact ⟨_, refLines_reads ha, List.mem_map.2 ⟨_, hm, by simp [asReference, hx]⟩⟩
    cases b with
    | heading _ ls => exact lines ht
    | paragraph ls => exact lines ht
    | _ => exact absurd ht id
  · intro b hb t ht
    refine (hlinks t b hb (hasLink hb ?_)).trans ((hlead b hb).link t ht)
    have lines : ∀ {ls : List (List Char)}, (∃ a, ContentReads ls a ∧ Run.link t ∈ a) → ∃ a, ContentReads (refLines ls) a ∧ Run.link t ∈ a := by
      rintro ls ⟨a, ha, hm⟩
      exact ⟨_, refLines_reads ha, List.mem_map.2 ⟨.link t, hm, rfl⟩⟩
    cases b with
    | heading _ ls => exact lines ht
    | paragraph ls => exact lines ht
    | _ => exact absurd ht id

/-- **C91 (partial): idempotence.** With a parser that agrees with the reader, formatting twice is formatting once. The
same restrictions. -/
theorem c91_twice_partial (cx : Cx) (parse : List Char → Node) (hp : AgreesTree parse) (source : List Char) (d : List TreeBlock)
    (ho : NestedOptions cx.opts) (hcb : cx.callback = none) (hu : AsciiLetters cx.uni) (hd : ReadsAs source d)
    (hf : ∀ b ∈ blocksLeaves d, BlockSites cx b) (ha : OneAddress (blocksLeaves d)) (hr : regularBlocks d = true)
    (hn : follows notBothLists (shownTrees d) = true) :
    (formatWithWarnings cx parse (formatWithWarnings cx parse source).1).1 = (formatWithWarnings cx parse source).1 := by
  by_cases h0 : source = []
  · subst h0; rfl
  · obtain ⟨d', h1, _, h3, _⟩ := sites_tree ho hcb hu hd hf ha hr hn (hp source d hd)
    have e : (formatWithWarnings cx parse source).1 = (formatDoc (withSource cx source) (parse source)).output := by
      rw [formatWithWarnings, if_neg h0]
    rw [e]
    by_cases h : (formatDoc (withSource cx source) (parse source)).output = []
    · rw [h]; rfl
    · rw [formatWithWarnings, if_neg h]
      exact h3 _ (hp _ _ h1)

/-- **C83 (partial): the paragraphs of a formatted document with links to other sites fit.** As `c83_nested_partial`;
the width is that of the text without the addresses. -/
theorem c83_sites_partial (cx : Cx) (source : List Char) (d d' : List TreeBlock) (root : Node) (ho : NestedOptions cx.opts)
    (hcb : cx.callback = none) (hu : AsciiLetters cx.uni) (hd : ReadsAs source d) (hf : ∀ b ∈ blocksLeaves d, BlockSites cx b)
    (ha : OneAddress (blocksLeaves d)) (hr : regularBlocks d = true) (hn : follows notBothLists (shownTrees d) = true)
    (ht : IsDocument source d root) (hw : FitWidth cx.width) (hd' : ReadsAs (formatDoc (withSource cx source) root).output d') :
    FitsBlocks (FitsOrWord cx.width cx.opts.lineWidth) 0 0 d' := by
  obtain ⟨e, h1, _, _, h4⟩ := sites_tree ho hcb hu hd hf ha hr hn ht
  rw [readsAs_unique hd' h1]
  exact h4 hw

/-! ## Examples -/

/-- What is needed of lines, from their content. -/
theorem sites_lines {cx : Cx} {ls : List (List Char)} {a : List Run} (ha : ContentReads ls a)
    (hw : ∀ l ∈ splitOn '\n' (runsText (a.map asReference)), TextLine l) (h1 : '"' ∉ (a.map asReference).flatMap linkWords)
    (h2 : '\'' ∉ (a.map asReference).flatMap linkWords) {ls' : List (List Char)} (h : ReferenceLines ls ls') :
    (∀ l ∈ ls', TextLine l) ∧ LinkMarksKept cx ls' ∧ joinWith ['\n'] ls' = runsText (a.map asReference) := by
  obtain ⟨b, hb, rfl⟩ := h
  obtain rfl := content_unique ha hb
  refine ⟨hw, fun c hc => ?_, join_splitOn _ _⟩
  have : c = a.map asReference := content_unique hc ⟨(join_splitOn _ _).symm, reference_ok ha.2⟩
  subst this
  refine ⟨⟨fun h => absurd h h1, fun h => absurd h h2⟩, fun r hr => ?_⟩
  obtain ⟨x, _, rfl⟩ := List.mem_map.1 hr
  exact reference_other x

theorem sites_paragraph {cx : Cx} {ls : List (List Char)} {a : List Run} (ha : ContentReads ls a)
    (hw : ∀ l ∈ splitOn '\n' (runsText (a.map asReference)), TextLine l) (h1 : '"' ∉ (a.map asReference).flatMap linkWords)
    (h2 : '\'' ∉ (a.map asReference).flatMap linkWords) : BlockSites cx (.paragraph ls) := by
  intro b' h
  cases b' with
  | paragraph ls' => exact ⟨(sites_lines (cx := cx) ha hw h1 h2 h).1, (sites_lines ha hw h1 h2 h).2.1⟩
  | _ => exact absurd h id

theorem sites_heading {o : Options} {level : Nat} {ls : List (List Char)} {a : List Run} (ha : ContentReads ls a)
    (hw : ∀ l ∈ splitOn '\n' (runsText (a.map asReference)), TextLine l) (h1 : '"' ∉ (a.map asReference).flatMap linkWords)
    (h2 : '\'' ∉ (a.map asReference).flatMap linkWords) (h3 : '\n' ∉ runsText (a.map asReference)) (h4 : runsText (a.map asReference) ≠ []) :
    BlockSites (exWith o) (.heading level ls) := by
  intro b' h
  cases b' with
  | heading level' ls' =>
    refine ⟨(sites_lines (cx := exWith o) ha hw h1 h2 h.2).1, (sites_lines ha hw h1 h2 h.2).2.1, fun ls2 hc => ?_⟩
    have e : ls' = [runsText (a.map asReference)] := by
      obtain ⟨b, hb, e⟩ := h.2
      obtain rfl := content_unique ha hb
      rw [e, splitOn_of_not_mem h3]
    subst e
    have e1 := curledLines_length hc
    have e2 := hc.1
    cases ls2 with
    | nil => cases e2
    | cons l r =>
      cases r with
      | cons _ _ => simp at e2
      | nil =>
        show 0 < (joinWith [' '] [l]).length
        rw [joinWith, joinWith] at e1
        rw [joinWith, e1]
        exact List.length_pos_iff.2 h4
  | _ => exact absurd h id

/-- A document with links to other sites. -/
def exSitesSource : List Char := "A title\n=======\n\nSee [the docs](https://docs.example/a), \"now\"\nor [x y].\n\n- one [a site](http://a.example)\n\n| [a site](http://a.example) |\n| --- |\n| b |\n\n[x y]: https://x.example\n".toList

def exSitesText : CoreBlock := .paragraph ["See [the docs](https://docs.example/a), \"now\"".toList, "or [x y].".toList]

def exSitesRuns : List Run := [.span (.text "See ".toList), .direct false "the docs".toList "https://docs.example/a".toList,
  .span (.text ", \"now\"\nor ".toList), .link "x y".toList, .span (.text ".".toList)]

def exSitesItem : CoreBlock := .paragraph ["one [a site](http://a.example)".toList]

def exSitesCell : CoreBlock := .paragraph ["[a site](http://a.example)".toList]

def exSitesBlocks : List TreeBlock :=
  [.leaf false (.heading 1 ["A title".toList]), .leaf true exSitesText, .list true none true [[.leaf false exSitesItem]],
    .table true [.none] [["[a site](http://a.example)".toList], ["b".toList]], .leaf true (.definition "x y".toList ("https://x.example".toList, []))]

theorem exSites_leaves : blocksLeaves exSitesBlocks = [.heading 1 ["A title".toList], exSitesText, exSitesItem, exSitesCell, .paragraph ["b".toList],
    .definition "x y".toList ("https://x.example".toList, [])] := by decide +kernel

theorem exSitesSource_reads : ReadsAs exSitesSource exSitesBlocks := by
  refine ⟨by decide +kernel, by decide +kernel, by decide +kernel, by decide +kernel, ?_, 40, by decide +kernel⟩
  have hl : linksOf exSitesBlocks "x y".toList = some ("https://x.example".toList, []) := by decide +kernel
  rw [exSites_leaves]
  intro b hb
  simp only [List.mem_cons, List.not_mem_nil, or_false] at hb
  rcases hb with rfl | rfl | rfl | rfl | rfl | rfl
  · exact ⟨[.span (.text "A title".toList)], by decide +kernel, fun t ht => absurd ht (by simp)⟩
  · refine ⟨exSitesRuns, by decide +kernel, fun t ht => ?_⟩
    have : t = "x y".toList := by simpa [exSitesRuns] using ht
    rw [this, hl]; rfl
  · exact ⟨[.span (.text "one ".toList), .direct false "a site".toList "http://a.example".toList], by decide +kernel, fun t ht => absurd ht (by simp)⟩
  · exact ⟨[.direct false "a site".toList "http://a.example".toList], by decide +kernel, fun t ht => absurd ht (by simp)⟩
  · exact ⟨[.span (.text "b".toList)], by decide +kernel, fun t ht => absurd ht (by simp)⟩
  · trivial

theorem exSites_blocks : ∀ b ∈ blocksLeaves exSitesBlocks, BlockSites (exWith defaultOptions) b := by
  rw [exSites_leaves]
  intro b hb
  simp only [List.mem_cons, List.not_mem_nil, or_false] at hb
  rcases hb with rfl | rfl | rfl | rfl | rfl | rfl
  · exact sites_heading (a := [.span (.text "A title".toList)]) (by decide +kernel) (by decide +kernel) (by decide +kernel) (by decide +kernel)
      (by decide +kernel) (by decide +kernel)
  · exact sites_paragraph (a := exSitesRuns) (by decide +kernel) (by decide +kernel) (by decide +kernel) (by decide +kernel)
  · exact sites_paragraph (a := [.span (.text "one ".toList), .direct false "a site".toList "http://a.example".toList]) (by decide +kernel)
      (by decide +kernel) (by decide +kernel) (by decide +kernel)
  · exact sites_paragraph (a := [.direct false "a site".toList "http://a.example".toList]) (by decide +kernel)
      (by decide +kernel) (by decide +kernel) (by decide +kernel)
  · exact sites_paragraph (a := [.span (.text "b".toList)]) (by decide +kernel) (by decide +kernel) (by decide +kernel) (by decide +kernel)
  · intro b' h
    cases b' with
    | definition _ _ => exact ⟨trivial, trivial⟩
    | _ => exact absurd h id

/-- The links to other sites in lines, from their content. -/
theorem leads_lines {t url : List Char} {ls : List (List Char)} {a : List Run} (ha : ContentReads ls a)
    (h : ∃ b, ContentReads ls b ∧ .direct false t url ∈ b ∧ external url) : .direct false t url ∈ a := by
  obtain ⟨b, hb, hm, _⟩ := h
  rwa [content_unique ha hb]

theorem exSites_address : OneAddress (blocksLeaves exSitesBlocks) := by
  have key : ∀ b ∈ blocksLeaves exSitesBlocks, ∀ t url, LeadsTo t url b →
      (t, url) ∈ [("the docs".toList, "https://docs.example/a".toList), ("a site".toList, "http://a.example".toList)] := by
    rw [exSites_leaves]
    intro b hb t url h
    simp only [List.mem_cons, List.not_mem_nil, or_false] at hb
    rcases hb with rfl | rfl | rfl | rfl | rfl | rfl
    · exact absurd (leads_lines (a := [.span (.text "A title".toList)]) (by decide +kernel) h) (by simp)
    · have := leads_lines (a := exSitesRuns) (by decide +kernel) h
      simp only [exSitesRuns, List.mem_cons, List.not_mem_nil, or_false, reduceCtorEq, false_or, Run.direct.injEq, true_and] at this
      simp [this]
    · have := leads_lines (a := [.span (.text "one ".toList), .direct false "a site".toList "http://a.example".toList]) (by decide +kernel) h
      simp only [List.mem_cons, List.not_mem_nil, or_false, reduceCtorEq, false_or, Run.direct.injEq, true_and] at this
      simp [this]
    · have := leads_lines (a := [.direct false "a site".toList "http://a.example".toList]) (by decide +kernel) h
      simp only [List.mem_cons, List.not_mem_nil, or_false, Run.direct.injEq, true_and] at this
      simp [this]
    · exact absurd (leads_lines (a := [.span (.text "b".toList)]) (by decide +kernel) h) (by simp)
    · exact absurd h id
  have one : ∀ x ∈ [("the docs".toList, "https://docs.example/a".toList), ("a site".toList, "http://a.example".toList)],
      (∀ y ∈ [("the docs".toList, "https://docs.example/a".toList), ("a site".toList, "http://a.example".toList)],
        foldLabel y.1 = foldLabel x.1 → y.2 = x.2) ∧ foldLabel "x y".toList ≠ foldLabel x.1 := by decide +kernel
  intro b hb t url h
  obtain ⟨h1, h2⟩ := one _ (key b hb t url h)
  refine ⟨fun c hc t' url' h' hx => h1 _ (key c hc t' url' h') hx, fun label target hm hx => ?_⟩
  rw [exSites_leaves] at hm
  have : (label, target) = ("x y".toList, ("https://x.example".toList, [])) := by simpa [definitions, exSitesText, exSitesItem, exSitesCell] using hm
  cases this
  exact absurd hx h2

/-- What the theorems say of the example: whatever its tree, what is written for it stays as it is. -/
example (parse : List Char → Node) (hp : AgreesTree parse) :
    (formatWithWarnings (exWith defaultOptions) parse (formatWithWarnings (exWith defaultOptions) parse exSitesSource).1).1 =
      (formatWithWarnings (exWith defaultOptions) parse exSitesSource).1 :=
  c91_twice_partial _ parse hp _ _ exOptions_nested rfl exLetters exSitesSource_reads exSites_blocks exSites_address (by decide +kernel)
    (by decide +kernel)

def exSitesTree : Node := .mk .document ⟨1, 1, 13, 24⟩
  [.mk (.heading 1) ⟨1, 1, 2, 7⟩ [.mk (.text "A title".toList) ⟨1, 1, 1, 7⟩ []],
    .mk .paragraph ⟨4, 1, 5, 9⟩ [.mk (.text "See ".toList) ⟨4, 1, 4, 4⟩ [],
      .mk (.link "https://docs.example/a".toList []) ⟨4, 5, 4, 38⟩ [.mk (.text "the docs".toList) ⟨4, 6, 4, 13⟩ []],
      .mk (.text ", \"now\"".toList) ⟨4, 39, 4, 45⟩ [], .mk .softBreak ⟨4, 46, 4, 46⟩ [], .mk (.text "or ".toList) ⟨5, 1, 5, 3⟩ [],
      .mk (.link "https://x.example".toList []) ⟨5, 4, 5, 8⟩ [.mk (.text "x y".toList) ⟨5, 5, 5, 7⟩ []], .mk (.text ".".toList) ⟨5, 9, 5, 9⟩ []],
    .mk (.list .bullet true) ⟨7, 1, 7, 32⟩ [.mk .item ⟨7, 1, 7, 32⟩ [.mk .paragraph ⟨7, 3, 7, 32⟩ [.mk (.text "one ".toList) ⟨7, 3, 7, 6⟩ [],
      .mk (.link "http://a.example".toList []) ⟨7, 7, 7, 32⟩ [.mk (.text "a site".toList) ⟨7, 8, 7, 13⟩ []]]]],
    .mk (.table [.none]) ⟨9, 1, 11, 5⟩
      [.mk .tableRow ⟨9, 1, 9, 30⟩ [.mk .tableCell ⟨9, 2, 9, 29⟩
          [.mk (.link "http://a.example".toList []) ⟨9, 3, 9, 28⟩ [.mk (.text "a site".toList) ⟨9, 4, 9, 9⟩ []]]],
        .mk .tableRow ⟨11, 1, 11, 5⟩ [.mk .tableCell ⟨11, 2, 11, 4⟩ [.mk (.text "b".toList) ⟨11, 3, 11, 3⟩ []]]]]

example : (formatDoc (withSource (exWith defaultOptions) exSitesSource) exSitesTree).output =
    "A title\n=======\n\nSee [the docs], “now”\nor [x y].\n\n -  one [a site]\n\n| [a site] |\n| -------- |\n| b        |\n\n[the docs]: https://docs.example/a\n[x y]: https://x.example\n[a site]: http://a.example\n".toList := by
  decide +kernel

/-! ## Where it fails -/

/-- Two links to other sites with the same text. -/
def exTwiceSource : List Char := "[the docs](https://a.example) and [the docs](https://b.example).\n".toList

def exTwiceRuns : List Run := [.direct false "the docs".toList "https://a.example".toList, .span (.text " and ".toList),
  .direct false "the docs".toList "https://b.example".toList, .span (.text ".".toList)]

def exTwiceBlocks : List TreeBlock := [.leaf false (.paragraph ["[the docs](https://a.example) and [the docs](https://b.example).".toList])]

def exTwiceTree : Node := .mk .document ⟨1, 1, 1, 64⟩ [.mk .paragraph ⟨1, 1, 1, 64⟩
  [.mk (.link "https://a.example".toList []) ⟨1, 1, 1, 29⟩ [.mk (.text "the docs".toList) ⟨1, 2, 1, 9⟩ []], .mk (.text " and ".toList) ⟨1, 30, 1, 34⟩ [],
    .mk (.link "https://b.example".toList []) ⟨1, 35, 1, 63⟩ [.mk (.text "the docs".toList) ⟨1, 36, 1, 43⟩ []], .mk (.text ".".toList) ⟨1, 64, 1, 64⟩ []]]

/-- **C91 is false** without the condition that links with the same text have the same address (src/serializer/state.rs:448-459): of
two links to other sites with the same text, the first leads where the second does. -/
theorem c91_address_false : ¬ ∀ (cx : Cx) (source : List Char) (d d' : List TreeBlock) (root : Node), NestedOptions cx.opts →
    cx.callback = none → AsciiLetters cx.uni → ReadsAs source d → (∀ b ∈ blocksLeaves d, BlockSites cx b) → regularBlocks d = true →
    follows notBothLists (shownTrees d) = true → IsDocument source d root → ReadsAs (formatDoc (withSource cx source) root).output d' →
    ∀ b ∈ blocksLeaves d, ∀ t url, LeadsTo t url b → linksOf d' t = some (url, []) := by
  intro h
  have hl : blocksLeaves exTwiceBlocks = [.paragraph ["[the docs](https://a.example) and [the docs](https://b.example).".toList]] := by decide +kernel
  have hc : ContentReads ["[the docs](https://a.example) and [the docs](https://b.example).".toList] exTwiceRuns := by decide +kernel
  have hr : ReadsAs exTwiceSource exTwiceBlocks := by
    refine ⟨by decide +kernel, by decide +kernel, by decide +kernel, by decide +kernel, ?_, 10, by decide +kernel⟩
    rw [hl]
    intro b hb
    obtain rfl := List.mem_singleton.1 hb
    exact ⟨_, hc, fun t ht => absurd ht (by simp [exTwiceRuns])⟩
  have hf : ∀ b ∈ blocksLeaves exTwiceBlocks, BlockSites (exWith defaultOptions) b := by
    rw [hl]
    intro b hb
    obtain rfl := List.mem_singleton.1 hb
    exact sites_paragraph hc (by decide +kernel) (by decide +kernel) (by decide +kernel)
  have ht : IsDocument exTwiceSource exTwiceBlocks exTwiceTree := by
    refine ⟨_, _, rfl, _, [], rfl, ?_, rfl⟩
    rw [TreeNode]
    refine ⟨_, _, "[the docs](https://a.example) and [the docs](https://b.example).".toList, rfl, ⟨_, hc, ?_⟩, ⟨[], "\n".toList, by decide +kernel, by decide +kernel⟩,
      List.take_prefix _ _, by decide +kernel⟩
    refine ⟨_, _, _, rfl, .inr ⟨_, by decide, rfl, "[".toList, "](https://a.example) and [the docs](https://b.example).\n".toList, by decide +kernel, by decide +kernel⟩,
      ⟨[], " and [the docs](https://b.example).\n".toList, by decide +kernel, by decide +kernel⟩, [_], _, rfl, ?_, ?_⟩
    · exact .inr ⟨_, by decide, rfl, "[the docs](https://a.example)".toList, "[the docs](https://b.example).\n".toList, by decide +kernel, by decide +kernel⟩
    refine ⟨_, _, _, rfl, .inr ⟨_, by decide, rfl, "[the docs](https://a.example) and [".toList, "](https://b.example).\n".toList, by decide +kernel, by decide +kernel⟩,
      ⟨"[the docs](https://a.example) and ".toList, ".\n".toList, by decide +kernel, by decide +kernel⟩, [_], [], rfl, ?_, rfl⟩
    exact .inr ⟨_, by decide, rfl, "[the docs](https://a.example) and [the docs](https://b.example)".toList, "\n".toList, by decide +kernel, by decide +kernel⟩
  have e : (formatDoc (withSource (exWith defaultOptions) exTwiceSource) exTwiceTree).output =
    "[the docs] and [the docs].\n\n[the docs]: https://b.example\n".toList := by decide +kernel
  have hd' : ReadsAs (formatDoc (withSource (exWith defaultOptions) exTwiceSource) exTwiceTree).output
      [.leaf false (.paragraph ["[the docs] and [the docs].".toList]), .leaf true (.definition "the docs".toList ("https://b.example".toList, []))] := by
    rw [e]
    refine ⟨by decide +kernel, by decide +kernel, by decide +kernel, by decide +kernel, ?_, 10, by decide +kernel⟩
    have hx : linksOf [.leaf false (.paragraph ["[the docs] and [the docs].".toList]), .leaf true (.definition "the docs".toList ("https://b.example".toList, []))]
      "the docs".toList = some ("https://b.example".toList, []) := by decide +kernel
    intro b hb
    simp only [blocksLeaves, leaves, List.cons_append, List.nil_append, List.mem_cons, List.not_mem_nil, or_false, List.append_nil] at hb
    rcases hb with rfl | rfl
    · refine ⟨[.link "the docs".toList, .span (.text " and ".toList), .link "the docs".toList, .span (.text ".".toList)], by decide +kernel, fun t ht => ?_⟩
      have : t = "the docs".toList := by simpa using ht
      rw [this, hx]; rfl
    · trivial
  have := h (exWith defaultOptions) exTwiceSource exTwiceBlocks _ exTwiceTree exOptions_nested rfl exLetters hr hf (by decide +kernel) (by decide +kernel) ht hd'
    (.paragraph ["[the docs](https://a.example) and [the docs](https://b.example).".toList]) (by rw [hl]; exact List.mem_singleton.2 rfl) "the docs".toList "https://a.example".toList ⟨_, hc, by simp [exTwiceRuns], by decide⟩
  exact absurd this (by decide +kernel)

end Hongdown.Props
