import Verif.Spec.Fitted
import Verif.Props.Nested

/-!
# Documents fit the line width: C83, C84
-/

namespace Hongdown.Props
open Model Spec

/-- What the theorems below rest on. -/
theorem fitted_tree {cx : Cx} {source : List Char} {d : List TreeBlock} {root : Node} (ho : NestedOptions cx.opts)
    (hcb : cx.callback = none) (hd : ReadsAs source d) (hf : ∀ b ∈ blocksLeaves d, BlockFits cx b) (hr : regularBlocks d = true)
    (hn : follows notBothLists (shownTrees d) = true) (ht : IsDocument source d root) (hw : FitWidth cx.width) :
    ∃ d', ReadsAs (formatDoc (withSource cx source) root).output d' ∧
      FitsBlocks (FitsOrWord cx.width cx.opts.lineWidth) 0 0 d' ∧
      (FitsBlocks (Fits cx.width cx.opts.lineWidth) 0 0 d → paragraphLines (blocksLeaves d') = paragraphLines (blocksLeaves d)) := by
  have hg := docGood_of hd hf hr hn
  have hs : shapedBlocks (shownTrees d) = true :=
    shapedBlocks_iff.2 fun b hb => shapedBlocks_iff.1 (shapedBlocks_of_regular d hr hg.well) b (mem_shownTrees.1 hb).1
  have e := format_placed ho hcb hd (fits_kept hf) hs (hg.ends ho) ht
  obtain ⟨d', h1, _, _, _, _, h6, h7⟩ := treeDoc_reads ho hg
  rw [e]
  exact ⟨d', h1, h6 hw, h7 hw⟩

/-! ## C83 -/

/-- **C83 (partial): the paragraphs of a formatted document fit.** Full statement: every line of a
paragraph in the output fits the line width or is a single word, all of a code span being part of a
word. Missing: the restrictions of
`c82_read_back_partial` on documents and options; in an item, the columns before the first line of a
paragraph are not counted (`c83_item_false` refutes the claim where they are). What holds: whatever
the output reads as, every line of a paragraph, counted from the left margin, fits or is a single word;
the first line of a paragraph in an item is counted from where its text begins. The marker of a block
quote is counted. -/
theorem c83_nested_partial (cx : Cx) (source : List Char) (d d' : List TreeBlock) (root : Node) (ho : NestedOptions cx.opts)
    (hcb : cx.callback = none) (hd : ReadsAs source d) (hf : ∀ b ∈ blocksLeaves d, BlockFits cx b) (hr : regularBlocks d = true)
    (hn : follows notBothLists (shownTrees d) = true) (ht : IsDocument source d root) (hw : FitWidth cx.width)
    (hd' : ReadsAs (formatDoc (withSource cx source) root).output d') :
    FitsBlocks (FitsOrWord cx.width cx.opts.lineWidth) 0 0 d' := by
  obtain ⟨e, h1, h2, _⟩ := fitted_tree ho hcb hd hf hr hn ht hw
  rwa [readsAs_unique hd' h1]

/-- **C83 (partial): without lists every line of every paragraph fits or is a single word.** The
restrictions of C54 on the options. -/
theorem c83_core_partial (cx : Cx) (source : List Char) (d : List CoreBlock) (root : Node) (ho : CoreOptions cx.opts) (hcb : cx.callback = none)
    (hd : ReadsCore source d) (hf : ∀ b ∈ d, BlockFits cx b) (ht : IsTree source d root) (hw : WidthOk cx.width) :
    ∃ d', ReadsCore (formatDoc (withSource cx source) root).output d' ∧
      ∀ ls, .paragraph ls ∈ d' → ∀ l ∈ ls, cx.width l ≤ cx.opts.lineWidth ∨ Unbreakable l := by
  obtain ⟨hr, hv⟩ := readCore_valid hd
  have e := format_core_kept hr ho hcb (fun b hb => ⟨(hv b hb).1, blockKept_of (hf b hb)⟩) ht
  obtain ⟨d', h1, h2, _, _, _, h6, _⟩ := coreDoc_reads ho hv hf
  rw [e]
  refine ⟨d', ⟨h1, sameDoc_content h2 hd.2⟩, fun ls hls l hl => ?_⟩
  have := h6 hw _ hls
  rw [FitsTree] at this
  cases ls with
  | nil => cases hl
  | cons x r =>
    have hx : FitsOrWord cx.width cx.opts.lineWidth 0 l := by
      rcases List.mem_cons.1 hl with rfl | hl
      · exact this.1
      · exact this.2 l hl
    simpa [FitsOrWord, Fits] using hx

/-- A narrow page. -/
def exNarrow : Options := { defaultOptions with lineWidth := 20 }

theorem exNarrow_nested : NestedOptions exNarrow where
  rule := by decide +kernel
  noFrontMatter := by decide +kernel
  fence := by decide
  fenceLength := by decide
  language := by decide
  dashes := exOptions_core.dashes
  sentenceCase := rfl
  formatters := rfl
  bullet := by decide
  trailing := by decide
  indent := by decide
  orderedIndent := by decide
  unorderedMarker := by decide
  oddMarker := by decide
  evenMarker := by decide

theorem exLength_ok : WidthOk (List.length : List Char → Nat) := by
  have h := widthOk_sum (fun _ => 1) rfl
  have e : (fun s : List Char => (s.map fun _ => 1).sum) = List.length := by
    funext s; induction s with
    | nil => rfl
    | cons _ _ ih => simp at ih ⊢; omega
  rw [e] at h; exact h

theorem exLength_fit : FitWidth (List.length : List Char → Nat) := ⟨exLength_ok, rfl⟩

def exItemSource : List Char := "- aaaa bbbb cccc dddd eeee\n".toList

def exItemBlocks (ls : List (List Char)) : List TreeBlock := [.list false none true [[.leaf false (.paragraph ls)]]]

theorem exItemSource_reads : ReadsAs exItemSource (exItemBlocks ["aaaa bbbb cccc dddd eeee".toList]) :=
  ⟨by decide +kernel, by decide +kernel, by decide +kernel, by decide +kernel,
    content_textOnly (by decide +kernel), 30, by decide +kernel⟩

/-- **C83 is false** for the first lines of items: the marker is not counted when a paragraph in an
item is wrapped (src/serializer/document.rs:514-519), so the line is up to four columns per level too
wide. -/
theorem c83_item_false : ¬ ∀ (cx : Cx) (parse : List Char → Node) (source : List Char) (d d' : List TreeBlock), AgreesTree parse →
    NestedOptions cx.opts → cx.callback = none → ReadsAs source d → (∀ b ∈ blocksLeaves d, BlockFits cx b) → regularBlocks d = true →
    follows notBothLists (shownTrees d) = true → FitWidth cx.width → ReadsAs (formatWithWarnings cx parse source).1 d' →
    FitsBlocks (FitsOrWord cx.width cx.opts.lineWidth) 4 0 d' := by
  intro h
  obtain ⟨parse, hp⟩ := c82_parser
  have e1 := writes_tree (cx := exWith exNarrow) hp exNarrow_nested rfl exItemSource_reads (by decide +kernel) (by decide +kernel) (by decide +kernel) (by decide)
  rw [show treeDoc (exWith exNarrow) none false _ = " -  aaaa bbbb cccc dddd\n    eeee\n".toList by decide +kernel] at e1
  have h2 : ReadsAs " -  aaaa bbbb cccc dddd\n    eeee\n".toList (exItemBlocks ["aaaa bbbb cccc dddd".toList, "eeee".toList]) :=
    ⟨by decide +kernel, by decide +kernel, by decide +kernel, by decide +kernel,
    content_textOnly (by decide +kernel), 30, by decide +kernel⟩
  have := h (exWith exNarrow) parse _ _ _ hp exNarrow_nested rfl exItemSource_reads ?_ (by decide +kernel) (by decide +kernel) exLength_fit (by rw [e1]; exact h2)
  · simp only [exItemBlocks, FitsBlocks, FitsTree, FitsItems, ParFits, FitsOrWord, Fits] at this
    exact absurd this.1.1.1.1 (by decide +kernel)
  · intro b hb
    have : b = .paragraph ["aaaa bbbb cccc dddd eeee".toList] := by
      simpa [exItemBlocks, blocksLeaves, leaves, itemsLeaves] using hb
    rw [this]; exact markless_lines (by decide +kernel)

/-- What `c83_nested_partial` says of the example: the second line is counted with its indentation,
the first is not. -/
example : FitsBlocks (FitsOrWord List.length 20) 0 0 (exItemBlocks ["aaaa bbbb cccc dddd".toList, "eeee".toList]) := by
  simp only [exItemBlocks, FitsBlocks, FitsTree, FitsItems, ParFits, FitsOrWord, Fits]
  decide +kernel

example : ¬ FitsBlocks (FitsOrWord List.length 20) 0 0 (exItemBlocks ["aaaa".toList, "bbbb cccc dddd ee".toList]) := by
  simp only [exItemBlocks, FitsBlocks, FitsTree, FitsItems, ParFits, FitsOrWord, Fits]
  decide +kernel

/-- The marker of a block quote is counted in every line. -/
example : FitsBlocks (FitsOrWord List.length 12) 0 0 [.quote false none [.paragraph ["aaaa bbbbb".toList, "cccc ddddd".toList]]] ∧
    ¬ FitsBlocks (FitsOrWord List.length 12) 0 0 [.quote false none [.paragraph ["aaaa bbbbbb".toList]]] := by
  simp only [FitsBlocks, FitsTree, FitsQuote, ParFits, FitsOrWord, Fits]
  decide +kernel

/-- A code span is not broken. -/
example : FitsOrWord List.length 10 0 "`let x = 1;`".toList ∧ ¬ FitsOrWord List.length 10 0 "*let x = 1;*".toList := by
  unfold FitsOrWord Fits
  decide +kernel

/-! ## C84 -/

/-- **C84 (partial): paragraphs that fit are left as they are.** Full statement: if every line of
every paragraph fits the line width, no line break in a paragraph is moved. Missing: the restrictions
of `c82_read_back_partial` on documents and options. What holds: whatever the output reads as, its
paragraphs have the same lines as those of the source. In an item the columns before the first line of
a paragraph are not counted. (`c84_word_false` refutes the claim for lines that do not fit because
they are one long word.) -/
theorem c84_kept_partial (cx : Cx) (source : List Char) (d d' : List TreeBlock) (root : Node) (ho : NestedOptions cx.opts)
    (hcb : cx.callback = none) (hd : ReadsAs source d) (hf : ∀ b ∈ blocksLeaves d, BlockFits cx b) (hr : regularBlocks d = true)
    (hn : follows notBothLists (shownTrees d) = true) (ht : IsDocument source d root) (hw : FitWidth cx.width)
    (hfit : FitsBlocks (Fits cx.width cx.opts.lineWidth) 0 0 d) (hd' : ReadsAs (formatDoc (withSource cx source) root).output d') :
    paragraphLines (blocksLeaves d') = paragraphLines (blocksLeaves d) := by
  obtain ⟨e, h1, _, h3⟩ := fitted_tree ho hcb hd hf hr hn ht hw
  rw [readsAs_unique hd' h1, h3 hfit]

/-- The premise holds of a document with short lines. -/
example : FitsBlocks (Fits List.length 20) 0 0 (exItemBlocks ["one".toList, "two three".toList]) := by
  simp only [exItemBlocks, FitsBlocks, FitsTree, FitsItems, ParFits, Fits]
  decide +kernel

def exWordSource : List Char := "aaaaaaaaaaaaaaaaaaaaaaaa\nbb\ncc\n".toList

/-- **C84 is false** for paragraphs with a long word on a line of its own: the lines after it are
joined (src/serializer/wrap.rs:66-84). -/
theorem c84_word_false : ¬ ∀ (cx : Cx) (parse : List Char → Node) (source : List Char) (d d' : List TreeBlock), AgreesTree parse →
    NestedOptions cx.opts → cx.callback = none → ReadsAs source d → (∀ b ∈ blocksLeaves d, BlockFits cx b) → regularBlocks d = true →
    follows notBothLists (shownTrees d) = true → FitWidth cx.width → FitsBlocks (FitsOrWord cx.width cx.opts.lineWidth) 4 0 d →
    ReadsAs (formatWithWarnings cx parse source).1 d' → paragraphLines (blocksLeaves d') = paragraphLines (blocksLeaves d) := by
  intro h
  obtain ⟨parse, hp⟩ := c82_parser
  have h1 : ReadsAs exWordSource [.leaf false (.paragraph ["aaaaaaaaaaaaaaaaaaaaaaaa".toList, "bb".toList, "cc".toList])] :=
    ⟨by decide +kernel, by decide +kernel, by decide +kernel, by decide +kernel,
    content_textOnly (by decide +kernel), 30, by decide +kernel⟩
  have h2 : ReadsAs "aaaaaaaaaaaaaaaaaaaaaaaa\nbb cc\n".toList [.leaf false (.paragraph ["aaaaaaaaaaaaaaaaaaaaaaaa".toList, "bb cc".toList])] :=
    ⟨by decide +kernel, by decide +kernel, by decide +kernel, by decide +kernel,
    content_textOnly (by decide +kernel), 30, by decide +kernel⟩
  have e1 := writes_tree (cx := exWith exNarrow) hp exNarrow_nested rfl h1 (by decide +kernel) (by decide +kernel) (by decide +kernel) (by decide)
  rw [show treeDoc (exWith exNarrow) none false _ = "aaaaaaaaaaaaaaaaaaaaaaaa\nbb cc\n".toList by decide +kernel] at e1
  have := h (exWith exNarrow) parse _ _ _ hp exNarrow_nested rfl h1 ?_ (by decide +kernel) (by decide +kernel) exLength_fit ?_ (by rw [e1]; exact h2)
  · exact absurd this (by decide +kernel)
  · intro b hb
    have : b = .paragraph ["aaaaaaaaaaaaaaaaaaaaaaaa".toList, "bb".toList, "cc".toList] := by
      simpa [blocksLeaves, leaves] using hb
    rw [this]; exact markless_lines (by decide +kernel)
  · simp only [FitsBlocks, FitsTree, ParFits, FitsOrWord, Fits]
    decide +kernel

end Hongdown.Props
