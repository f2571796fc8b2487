import Verif.Lemmas.CoreRead
import Verif.Lemmas.ContentOne
import Verif.Props.Lists

/-!
# Formatting and reading back a core of Markdown: C54
-/

namespace Hongdown.Props
open Model Spec

/-- The default options are among those of `c54_read_back_partial`. -/
theorem exOptions_core : CoreOptions defaultOptions where
  sentenceCase := rfl
  formatters := rfl
  fence := .inr rfl
  fenceLength := by decide
  rule := by decide +kernel
  noFrontMatter := by decide +kernel
  language := by decide
  dashes := by
    rintro p (h | h)
    · cases h
    · cases h; exact .inl List.infix_rfl

/-- Reading is not trivial. -/
example : readCore "Title of it\n===========\n\nSome words, and\nmore.\n***\n~~~ rust\nlet x = 1;\n\n~~~\n## Next\n- item".toList = none := by
  decide +kernel

example : readCore "Title of it\n===========\n\nSome words, and\nmore.\n***\n~~~ rust\nlet x = 1;\n\n~~~\n## Next\n".toList =
    some [.heading 1 ["Title of it".toList], .paragraph ["Some words, and".toList, "more.".toList], .rule,
      .code "rust".toList ["let x = 1;".toList, []], .heading 2 ["Next".toList]] := by decide +kernel

/-- **C54: every document that is read has a tree**, so the theorems below are not about nothing. -/
theorem c54_tree (source : List Char) (d : List CoreBlock) (h : ReadsCore source d) : ∃ root, IsTree source d root :=
  tree_exists h

/-- **C54 (partial).** Full statement: for all options. Missing: sentence case for headings (it
changes words on purpose), code formatters, patterns for dashes that stand in plain words, quotation marks
to be replaced (see `c54_marks_partial`, C08 and C90), and a thematic break `---` (`c54_front_matter_false` refutes the claim with it). What holds: what is
written for a document is read as the same document up to line breaks, and whatever tree a parser
gives for that, formatting it again changes nothing. -/
theorem c54_read_back_partial (cx : Cx) (source : List Char) (d : List CoreBlock) (root : Node) (ho : CoreOptions cx.opts) (hcb : cx.callback = none)
    (hd : ReadsCore source d) (hf : ∀ b ∈ d, BlockFits cx b) (ht : IsTree source d root) :
    ∃ d', ReadsCore (formatDoc (withSource cx source) root).output d' ∧
      SameDoc cx.opts.defaultLanguage d d' ∧
      ∀ root', IsTree (formatDoc (withSource cx source) root).output d' root' →
        (formatDoc (withSource cx (formatDoc (withSource cx source) root).output) root').output =
          (formatDoc (withSource cx source) root).output := by
  obtain ⟨hr, hv⟩ := readCore_valid hd
  have e := format_core_kept hr ho hcb (fun b hb => ⟨(hv b hb).1, blockKept_of (hf b hb)⟩) ht
  obtain ⟨d', h1, h2, h3, h4, h5, _⟩ := coreDoc_reads ho hv hf
  rw [e]
  exact ⟨d', ⟨h1, sameDoc_content h2 hd.2⟩, h2, fun root' ht' => by rw [format_core_kept h5 ho hcb (fun b hb =>
    ⟨h4 b hb, sameDoc_kept h2 (fun c hc => blockKept_of (hf c hc)) b hb⟩) ht', h3]⟩

/-- **C54 (partial): idempotence.** With a parser that agrees with the reader, formatting twice is
formatting once. The same restrictions. -/
theorem c54_twice_partial (cx : Cx) (parse : List Char → Node) (hp : Agrees parse) (source : List Char) (d : List CoreBlock)
    (ho : CoreOptions cx.opts) (hcb : cx.callback = none) (hd : ReadsCore source d) (hf : ∀ b ∈ d, BlockFits cx b) :
    (formatWithWarnings cx parse (formatWithWarnings cx parse source).1).1 = (formatWithWarnings cx parse source).1 := by
  by_cases h0 : source = []
  · subst h0; rfl
  · obtain ⟨d', h1, _, h3⟩ := c54_read_back_partial cx source d (parse source) ho hcb hd hf (hp source d hd)
    have e : (formatWithWarnings cx parse source).1 = (formatDoc (withSource cx source) (parse source)).output := by
      rw [formatWithWarnings, if_neg h0]
    rw [e]
    by_cases h : (formatDoc (withSource cx source) (parse source)).output = []
    · rw [h]; rfl
    · rw [formatWithWarnings, if_neg h]
      exact h3 _ (hp _ _ h1)

/-- The premise on the parser can be met. -/
theorem c54_parser : ∃ parse, Agrees parse := by
  classical
  refine ⟨fun s => if h : ∃ root, ∃ d, ReadsCore s d ∧ IsTree s d root then h.choose else .mk .document ⟨1, 1, 1, 1⟩ [], ?_⟩
  intro s d hd
  obtain ⟨root, hr⟩ := tree_exists hd
  have h : ∃ root, ∃ d, ReadsCore s d ∧ IsTree s d root := ⟨root, d, hd, hr⟩
  simp only [dif_pos h]
  obtain ⟨d', h1, h2⟩ := h.choose_spec
  have e := h1.1
  rw [hd.1] at e
  cases e
  exact h2

/-- **C54: text has one content.** So `SameContent` cannot hold for want of another reading. -/
theorem c54_content (ls : List (List Char)) (a b : List Run) (ha : ContentReads ls a) (hb : ContentReads ls b) : a = b :=
  runs_unique ha.2 hb.2 (ha.1.trans hb.1.symm)

example : ContentReads ["Some *words,".toList, "and* `a  *b`.".toList]
    [.span (.text "Some ".toList), .emph '*' false [.text "words,\nand".toList], .span (.text " ".toList), .span (.code "a  *b".toList),
      .span (.text ".".toList)] := by decide +kernel

/-- Not all text has content. -/
example : ¬ ∃ a, ContentReads ["a*b".toList] a := by
  rintro ⟨a, h1, h2⟩
  cases a with
  | nil => cases h1
  | cons r a =>
    cases r with
    | link t => simp [runsText, runText, joinWith] at h1
    | direct image t url => cases image <;> simp [runsText, runText, bangOf, joinWith] at h1
    | emph d strong inner =>
      rcases h2.1 with rfl | rfl <;> cases strong <;> simp [runsText, runText, emphMark, joinWith] at h1
    | span s =>
      have h3 := textEnds_runs h2
      cases s with
      | code t => simp [runsText, runText, spanText, joinWith] at h1
      | text t =>
        obtain ⟨rfl, e⟩ := text_unique (x' := "*b".toList) (t' := "a".toList) (spanOk_textChar h2.1) (by decide) h3
          (textEnds_of (by decide) (by decide)) (by simpa [runsText, runText, spanText, joinWith] using h1)
        cases a with
        | nil => cases e
        | cons r a =>
          cases r with
          | link t => simp [runsText, runText] at e
          | direct image t url => cases image <;> simp [runsText, runText, bangOf] at e
          | span s =>
            obtain ⟨c, y, e2, n1, _⟩ := span_head h2.2.2.1 (runsText a)
            rw [runsText_cons, runText, e2] at e
            exact n1 (List.cons.inj e).1
          | emph d strong inner => exact absurd h2.2.2.2.2.1 (by simp [opens, spanText, gapChar])

/-- A document and its tree; the paragraph is wrapped at 12 columns. -/
def exCoreSource : List Char := "# A title\n\nSome *words,\nand* `a b`.\n".toList

def exCoreTree : Node := .mk .document ⟨1, 1, 4, 11⟩
  [.mk (.heading 1) ⟨1, 1, 1, 9⟩ [.mk (.text "A title".toList) ⟨1, 3, 1, 9⟩ []],
    .mk .paragraph ⟨3, 1, 4, 11⟩ [.mk (.text "Some ".toList) ⟨3, 1, 3, 5⟩ [],
      .mk .emph ⟨3, 6, 4, 4⟩ [.mk (.text "words,".toList) ⟨3, 7, 3, 12⟩ [], .mk .softBreak ⟨3, 13, 3, 13⟩ [], .mk (.text "and".toList) ⟨4, 1, 4, 3⟩ []],
      .mk (.text " ".toList) ⟨4, 5, 4, 5⟩ [], .mk (.code "a b".toList) ⟨4, 6, 4, 10⟩ [], .mk (.text ".".toList) ⟨4, 11, 4, 11⟩ []]]

/-- The content of its paragraph. -/
def exCoreContent : List Run := [.span (.text "Some ".toList), .emph '*' false [.text "words,\nand".toList], .span (.text " ".toList),
  .span (.code "a b".toList), .span (.text ".".toList)]

theorem exCoreContent_reads : ContentReads ["Some *words,".toList, "and* `a b`.".toList] exCoreContent := by decide +kernel

theorem exCoreTitle_reads : ContentReads ["A title".toList] [.span (.text "A title".toList)] := by decide +kernel

theorem exCoreSource_reads :
    ReadsCore exCoreSource [.heading 1 ["A title".toList], .paragraph ["Some *words,".toList, "and* `a b`.".toList]] := by
  refine ⟨by decide +kernel, fun b hb => ?_⟩
  simp only [List.mem_cons, List.not_mem_nil, or_false] at hb
  rcases hb with rfl | rfl
  · exact ⟨_, exCoreTitle_reads, by intro t ht; simp at ht⟩
  · exact ⟨_, exCoreContent_reads, by intro t ht; simp [exCoreContent] at ht⟩

theorem exCoreTree_tree :
    IsTree exCoreSource [.heading 1 ["A title".toList], .paragraph ["Some *words,".toList, "and* `a b`.".toList]] exCoreTree := by
  refine ⟨_, _, rfl, _, _, rfl, ⟨_, _, rfl, _, exCoreTitle_reads, [_], [], rfl, ?_, rfl⟩, _, _, rfl,
    ⟨_, _, rfl, ⟨_, exCoreContent_reads, [_], _, rfl, ?_, _, [_, _, _], _, "*words,\nand*".toList, rfl,
      ⟨[_, _, _], [], rfl, ?_, rfl⟩, ?_, by decide +kernel, by decide +kernel, [_], _, rfl, ?_, [_], _, rfl, ?_, [_], [], rfl, ?_, rfl⟩, ?_⟩, rfl⟩
  · exact .inr ⟨_, by decide, rfl, "# ".toList, "\n\nSome *words,\nand* `a b`.\n".toList, by decide +kernel, by decide +kernel⟩
  · exact .inr ⟨_, by decide, rfl, "# A title\n\n".toList, "*words,\nand* `a b`.\n".toList, by decide +kernel, by decide +kernel⟩
  · show TextNodes _ (splitOn '\n' "words,\nand".toList) _
    rw [show splitOn '\n' "words,\nand".toList = ["words,".toList, "and".toList] by decide +kernel, TextNodes]
    · refine ⟨[_], _, _, rfl, .inr ⟨_, by decide, rfl, "# A title\n\nSome *".toList, "\nand* `a b`.\n".toList, by decide +kernel, by decide +kernel⟩, ?_⟩
      rw [TextNodes]
      exact .inr ⟨_, by decide, rfl, "# A title\n\nSome *words,\n".toList, "* `a b`.\n".toList, by decide +kernel, by decide +kernel⟩
    · simp
  · exact ⟨"# A title\n\nSome ".toList, " `a b`.\n".toList, by decide +kernel, by decide +kernel⟩
  · exact .inr ⟨_, by decide, rfl, "# A title\n\nSome *words,\nand*".toList, "`a b`.\n".toList, by decide +kernel, by decide +kernel⟩
  · exact ⟨_, rfl, .inl ⟨"# A title\n\nSome *words,\nand* ".toList, ".\n".toList, by decide +kernel, by decide +kernel⟩⟩
  · exact .inr ⟨_, by decide, rfl, "# A title\n\nSome *words,\nand* `a b`".toList, "\n".toList, by decide +kernel, by decide +kernel⟩
  · exact ⟨"# A title\n\n".toList, "\n".toList, by decide +kernel, by decide +kernel⟩

example : (formatDoc (withSource (exWith { defaultOptions with lineWidth := 11 }) exCoreSource) exCoreTree).output =
    "A title\n=======\n\nSome\n*words,\nand* `a b`.\n".toList := by decide +kernel

example : readCore "A title\n=======\n\nSome\n*words,\nand* `a b`.\n".toList =
    some [.heading 1 ["A title".toList], .paragraph ["Some".toList, "*words,".toList, "and* `a b`.".toList]] := by decide +kernel

/-- An image and a link with its address, as lines of a paragraph. -/
def exDirectContent : List Run := [.span (.text "See ".toList), .direct true "a logo".toList "img/1.png".toList,
  .span (.text " and\n".toList), .direct false "the docs".toList "docs/x.md".toList, .span (.text ".".toList)]

theorem exDirectContent_reads :
    ContentReads ["See ![a logo](img/1.png) and".toList, "[the docs](docs/x.md).".toList] exDirectContent := by decide +kernel

/-- The address of a link is not that of another site, and not its text; such links are written otherwise. -/
example : ¬ LinesKept codeCx ["[the docs](https://docs.example/)".toList] := fun h =>
  (h [.direct false "the docs".toList "https://docs.example/".toList] (by decide +kernel)).2 _ (List.mem_singleton.2 rfl)
    (show external "https://docs.example/".toList by decide)

example : ¬ RunsOk none [.direct false "docs".toList "docs".toList] := by decide +kernel

def exDirectTree : Node := .mk .document ⟨1, 1, 2, 22⟩
  [.mk .paragraph ⟨1, 1, 2, 22⟩ [.mk (.text "See ".toList) ⟨1, 1, 1, 4⟩ [],
    .mk (.image "img/1.png".toList []) ⟨1, 5, 1, 24⟩ [.mk (.text "a logo".toList) ⟨1, 7, 1, 12⟩ []],
    .mk (.text " and".toList) ⟨1, 25, 1, 28⟩ [], .mk .softBreak ⟨1, 29, 1, 29⟩ [],
    .mk (.link "docs/x.md".toList []) ⟨2, 1, 2, 21⟩ [.mk (.text "the docs".toList) ⟨2, 2, 2, 9⟩ []],
    .mk (.text ".".toList) ⟨2, 22, 2, 22⟩ []]]

example : (formatDoc (withSource (exWith { defaultOptions with lineWidth := 24 })
      "See ![a logo](img/1.png) and\n[the docs](docs/x.md).\n".toList) exDirectTree).output =
    "See\n![a logo](img/1.png)\nand\n[the docs](docs/x.md).\n".toList := by decide +kernel

/-- Apostrophes in words stay as they are with the default options, and the text of the theorems may have them. -/
example : ContentReads ["Don't *panic, it's*".toList, "fine.".toList]
    [.span (.text "Don't ".toList), .emph '*' false [.text "panic, it's".toList], .span (.text "\nfine.".toList)] := by decide +kernel

example : LinesKept (exWith defaultOptions) ["Don't *panic, it's*".toList, "fine.".toList] := by
  intro a ha
  obtain rfl := c54_content _ _ [.span (.text "Don't ".toList), .emph '*' false [.text "panic, it's".toList],
    .span (.text "\nfine.".toList)] ha (by decide +kernel)
  exact ⟨⟨by decide +kernel, fun _ => ⟨rfl, fun c h => h⟩⟩, by simp [OtherSite]⟩

/-- With apostrophes and quotation marks to be replaced, they may not. -/
example : ¬ LinesKept (exWith defaultOptions) ["A \"word\".".toList] := by
  intro h
  have := (h [.span (.text "A \"word\".".toList)] (by decide +kernel)).1.1 (by decide +kernel)
  exact absurd this (by decide +kernel)

/-- A document with two thematic breaks. -/
def exRules : List Char := "***\n\nword\n\n***\n".toList

/-- **C54 is false** with the thematic break `---`, which the configuration accepts (src/config.rs:700-742):
a document that begins with a thematic break gets front matter. -/
theorem c54_front_matter_false : ¬ ∀ (cx : Cx) (source : List Char) (d : List CoreBlock) (root : Node),
    cx.opts.headingSentenceCase = false → isRule (spaces cx.opts.thematicBreakLeadingSpaces ++ cx.opts.thematicBreakStyle) = true →
    ReadsCore source d → (∀ b ∈ d, BlockFits cx b) → IsTree source d root →
    ¬ HasFrontMatter (formatDoc (withSource cx source) root).output := by
  intro h
  have hw : ContentReads ["word".toList] [.span (.text "word".toList)] := by decide +kernel
  have hd : ReadsCore exRules [.rule, .paragraph ["word".toList], .rule] := by
    refine ⟨by decide +kernel, fun b hb => ?_⟩
    simp only [List.mem_cons, List.not_mem_nil, or_false] at hb
    rcases hb with rfl | rfl | rfl
    · trivial
    · exact ⟨_, hw, by intro t ht; simp at ht⟩
    · trivial
  refine h (exWith { defaultOptions with thematicBreakStyle := ['-', '-', '-'], thematicBreakLeadingSpaces := 0 }) exRules _
    (.mk .document ⟨1, 1, 5, 3⟩ [.mk .thematicBreak ⟨1, 1, 1, 3⟩ [], .mk .paragraph ⟨3, 1, 3, 4⟩ [.mk (.text "word".toList) ⟨3, 1, 3, 4⟩ []],
      .mk .thematicBreak ⟨5, 1, 5, 3⟩ []]) rfl (by decide) hd ?_ ?_ ?_
  · intro b hb
    simp only [List.mem_cons, List.not_mem_nil, or_false] at hb
    rcases hb with rfl | rfl | rfl
    · trivial
    · exact linesKept_without (by decide +kernel) (by decide +kernel) (by decide +kernel)
    · trivial
  · refine ⟨_, _, rfl, _, _, rfl, ⟨_, rfl⟩, _, _, rfl, ⟨_, _, rfl, ?_, ?_⟩, _, _, rfl, ⟨_, rfl⟩, rfl⟩
    · exact ⟨_, hw, _, [], rfl, .inr ⟨_, by decide, rfl, "***\n\n".toList, "\n\n***\n".toList, by decide +kernel, by decide +kernel⟩, rfl⟩
    · exact ⟨"***\n\n".toList, "\n\n***\n".toList, by decide +kernel, by decide +kernel⟩
  · have e : (formatDoc (withSource (exWith { defaultOptions with thematicBreakStyle := ['-', '-', '-'], thematicBreakLeadingSpaces := 0 }) exRules)
      (.mk .document ⟨1, 1, 5, 3⟩ [.mk .thematicBreak ⟨1, 1, 1, 3⟩ [], .mk .paragraph ⟨3, 1, 3, 4⟩ [.mk (.text "word".toList) ⟨3, 1, 3, 4⟩ []],
        .mk .thematicBreak ⟨5, 1, 5, 3⟩ []])).output = "---\n\nword\n\n---\n".toList := by decide +kernel
    rw [e]
    exact ⟨["".toList, "word".toList, "".toList, "---".toList, "".toList], by decide +kernel, by decide +kernel⟩

end Hongdown.Props
