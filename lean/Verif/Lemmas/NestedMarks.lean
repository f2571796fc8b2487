import Verif.Lemmas.NestedMap

/-!
# Nested documents with their quotation marks replaced
-/

namespace Hongdown.Model
open Spec

theorem curl_first {cx : Cx} (ho : DashesOk cx.opts.punct) {ls : List (List Char)} (hne : ls ≠ []) (ht : ∀ l ∈ ls, TextLine l) {a : List Run}
    (ha : ContentReads ls a) : ['[', '!'].isPrefixOf ((curlLines cx ls).headD []) = ['[', '!'].isPrefixOf (ls.headD []) := by
  have h := curlLines_pairs (cx := cx) ho hne ht ha
  cases ls with
  | nil => exact absurd rfl hne
  | cons l ls =>
    generalize curlLines cx (l :: ls) = ms at h
    cases ms with
    | nil => exact absurd h id
    | cons m ms =>
      rw [List.headD_cons, List.headD_cons, Bool.eq_iff_iff, List.isPrefixOf_iff_prefix, List.isPrefixOf_iff_prefix,
        ← prefix_straight (by decide) m, ← prefix_straight (by decide) l, curly_straight h.1]

/-- Replacing marks keeps the kinds of blocks. -/
theorem curl_tame {cx : Cx} (ho : DashesOk cx.opts.punct) : Tame CoreValid (curlBlock cx) where
  heading _ _ := ⟨_, rfl⟩
  paragraph _ := ⟨_, rfl⟩
  code _ _ := rfl
  rule := rfl
  definition _ _ := rfl
  cell c h0 hv := by
    have hcell := curl_cell (cx := cx) ho h0 hv
    refine ⟨mapCell (curlBlock cx) c, ?_, curly_line hcell.2 (hv.2.1 c (by simp)), fun h hm => h ?_⟩
    · rw [curlBlock, hcell.1]
    · have := (curly_infix (x := ['|']) (by decide) hcell.2).2 (by obtain ⟨s, t, e⟩ := List.append_of_mem hm; exact ⟨s, t, by simp [e]⟩)
      exact this.subset (by simp)
  alert b hb := by
    cases b with
    | heading level ls =>
      obtain ⟨a, ha⟩ := hb.2.2.2
      exact curl_first ho hb.2.1 hb.2.2.1 ha
    | paragraph ls =>
      obtain ⟨a, ha⟩ := hb.2.2
      exact curl_first ho hb.1 hb.2.1 ha
    | _ => rfl

/-- A document that can be written. -/
structure DocSound (d : List TreeBlock) : Prop where
  valid : ∀ l ∈ blocksLeaves d, CoreValid l
  tabs : ∀ l ∈ blocksLeaves d, ∀ info ls, l = .code info ls → NoTabs ls
  content : ∀ l ∈ blocksLeaves d, HasContent (linksOf d) l
  well : WellBlocks d

theorem docSound_of {source : List Char} {d : List TreeBlock} (h : ReadsAs source d) : DocSound d where
  valid l hl := ((readsAs_ok h).1 l hl).1
  tabs l hl := by
    have := (readsAs_ok h).1 l hl
    rintro info ls rfl
    exact this.2.2
  content := h.2.2.2.2.1
  well := (readsAs_ok h).2

/-- A document whose marks are replaced is as good. -/
theorem docGood_curl {cx : Cx} {d : List TreeBlock} (ho : DashesOk cx.opts.punct) (hu : AsciiLetters cx.uni) (h : DocSound d)
    (hf : ∀ b ∈ blocksLeaves d, BlockMarks cx b) (hr : regularBlocks d = true) (hn : follows notBothLists (shownTrees d) = true) :
    DocGood cx (mapTrees (curlBlock cx) d) := by
  have htame := curl_tame (cx := cx) ho
  have hl := blocksLeaves_map htame d h.valid
  refine ⟨?_, ?_, wellBlocks_map htame d h.valid h.well, regularBlocks_map htame d hr, ?_⟩
  · rw [hl]
    intro l hm
    obtain ⟨b, hb, rfl⟩ := List.mem_map.1 hm
    refine ⟨curlBlock_valid ho (h.valid b hb), curlBlock_fits ho hu (h.valid b hb) (hf b hb), ?_⟩
    intro info ls e
    have := h.tabs b hb
    cases b with
    | code info' ls' => exact this _ _ e
    | _ => cases e
  · rw [hl, linksOf_map htame h.valid]
    intro l hm
    obtain ⟨b, hb, rfl⟩ := List.mem_map.1 hm
    exact curlBlock_content ho (h.content b hb)
  · rw [shownTrees_map htame, follows_map (mapTree_notBothLists htame)]
    exact hn

/-- What is written for a document. -/
theorem format_marks {cx : Cx} {source : List Char} {d : List TreeBlock} {root : Node} (ho : NestedOptions cx.opts) (hcb : cx.callback = none)
    (hcr : '\r' ∉ source) (h : DocSound d) (hq : ∀ l ∈ blocksLeaves (shownTrees d), BlockLinks cx l) (hs : shapedBlocks (shownTrees d) = true)
    (hends : ∀ b ∈ shownTrees (mapTrees (curlBlock cx) d), EndsOnce (treeText cx 0 b)) (ht : IsDocument source d root) :
    (formatDoc (withSource cx source) root).output = treeDoc cx none false (placed (mapTrees (curlBlock cx) d)) := by
  have htame := curl_tame (cx := cx) ho.dashes
  rw [shownTrees_map htame] at hends
  rw [placed, shownTrees_map htame, linksOf_map htame h.valid]
  exact format_tree hcr ho hcb (fun l hl => ⟨h.valid l (shown_leaf hl), hq l hl⟩) hs (fun b hb => hends _ (List.mem_map_of_mem hb)) ht

/-- What is written for a document is read as the document with its marks replaced, and stays as it is. -/
theorem marks_sound {cx : Cx} {source : List Char} {d : List TreeBlock} {root : Node} (ho : NestedOptions cx.opts)
    (hcb : cx.callback = none) (hu : AsciiLetters cx.uni) (hcr : '\r' ∉ source) (hd : DocSound d) (hf : ∀ b ∈ blocksLeaves d, BlockMarks cx b)
    (hr : regularBlocks d = true) (hn : follows notBothLists (shownTrees d) = true) (ht : IsDocument source d root) :
    ∃ d', ReadsAs (formatDoc (withSource cx source) root).output d' ∧
      SameDocument cx.opts.defaultLanguage (mapTrees (curlBlock cx) d) d' ∧
      (∀ root', IsDocument (formatDoc (withSource cx source) root).output d' root' →
        (formatDoc (withSource cx (formatDoc (withSource cx source) root).output) root').output =
          (formatDoc (withSource cx source) root).output) ∧
      (FitWidth cx.width → FitsBlocks (FitsOrWord cx.width cx.opts.lineWidth) 0 0 d') := by
  have hg := docGood_curl ho.dashes hu hd hf hr hn
  have hs : shapedBlocks (shownTrees d) = true :=
    shapedBlocks_iff.2 fun b hb => shapedBlocks_iff.1 (shapedBlocks_of_regular d hr hd.well) b (mem_shownTrees.1 hb).1
  have e := format_marks ho hcb hcr hd (fun l hl => blockLinks_marks (hf l (shown_leaf hl))) hs (hg.ends ho) ht
  obtain ⟨d', h1, h2, h3, h4, h5, h6, _⟩ := treeDoc_reads ho hg
  rw [e]
  exact ⟨d', h1, h2, fun root' ht' => by
    rw [format_placed ho hcb h1 (sameDocument_kept h2 fun l hl => blockKept_of (hg.leaf l (shown_leaf hl)).fits) h4 h5 ht', h3], h6⟩

end Hongdown.Model
