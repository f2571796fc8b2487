import Verif.Lemmas.NestedMarks
import Verif.Spec.OtherSite

/-!
# Inline links to other sites become references
-/

namespace Hongdown.Model
open Spec

theorem asReference_cases (r : Run) : (∃ t url, r = .direct false t url ∧ external url ∧ asReference r = .link t) ∨
    (asReference r = r ∧ ¬ OtherSite r) := by
  cases r with
  | direct image t url =>
    cases image with
    | true => exact .inr ⟨rfl, id⟩
    | false =>
      by_cases h : external url
      · exact .inl ⟨t, url, rfl, h, by simp [asReference, h]⟩
      · exact .inr ⟨by simp [asReference, h], h⟩
  | _ => exact .inr ⟨rfl, id⟩

theorem reference_other (r : Run) : ¬ OtherSite (asReference r) := by
  rcases asReference_cases r with ⟨t, url, rfl, _, e⟩ | ⟨e, h⟩
  · rw [e]; exact id
  · rw [e]; exact h

/-- The first character stays. -/
theorem reference_head : ∀ a : List Run, (runsText (a.map asReference)).head? = (runsText a).head?
  | [] => rfl
  | r :: a => by
    rw [List.map_cons, runsText_cons, runsText_cons, List.head?_append, List.head?_append, reference_head a]
    rcases asReference_cases r with ⟨t, url, rfl, _, e⟩ | ⟨e, _⟩
    · rw [e]; rfl
    · rw [e]

theorem reference_firstSpan (a : List Run) : firstSpan (a.map asReference) = firstSpan a := by
  cases a with
  | nil => rfl
  | cons r a =>
    rw [List.map_cons]
    rcases asReference_cases r with ⟨t, url, rfl, _, e⟩ | ⟨e, _⟩
    · rw [e]; rfl
    · rw [e]; cases r <;> rfl

/-- What may stand after a parenthesis may stand after a bracket. -/
theorem runsOk_bracket {a : List Run} (h : RunsOk (some ')') a) : RunsOk (some ']') a := by
  cases a with
  | nil => trivial
  | cons r a =>
    cases r with
    | span s => exact h
    | emph d strong inner =>
      have := h.2.2.1
      simp [opens, gapChar, blankChar] at this
    | link t => exact absurd h.2.1 (by decide)
    | direct image t url => exact absurd h.2.1 (by decide)

theorem reference_ok : ∀ {a : List Run} {p : Option Char}, RunsOk p a → RunsOk p (a.map asReference)
  | [], _, _ => trivial
  | r :: a, p, h => by
    rw [List.map_cons]
    rcases asReference_cases r with ⟨t, url, rfl, _, e⟩ | ⟨e, _⟩
    · rw [e]
      refine ⟨h.1.1, h.2.1, ?_, reference_ok (runsOk_bracket h.2.2.2)⟩
      rw [reference_head]; exact h.2.2.1
    · rw [e]
      cases r with
      | span s =>
        refine ⟨h.1, ?_, reference_ok h.2.2⟩
        rw [reference_firstSpan]; exact h.2.1
      | emph d strong inner =>
        refine ⟨h.1, h.2.1, h.2.2.1, ?_, reference_ok h.2.2.2.2⟩
        rw [reference_head]; exact h.2.2.2.1
      | link t =>
        refine ⟨h.1, h.2.1, ?_, reference_ok h.2.2.2⟩
        rw [reference_head]; exact h.2.2.1
      | direct image t url =>
        refine ⟨h.1, h.2.1, ?_, reference_ok h.2.2.2⟩
        rw [reference_head]; exact h.2.2.1

/-- The first two characters stay. -/
theorem reference_two {a : List Run} {p : Option Char} (h : RunsOk p a) : (runsText (a.map asReference)).take 2 = (runsText a).take 2 := by
  cases a with
  | nil => rfl
  | cons r a =>
    rw [List.map_cons, runsText_cons, runsText_cons]
    rcases asReference_cases r with ⟨t, url, rfl, _, e⟩ | ⟨e, _⟩
    · rw [e]
      obtain ⟨c, t, rfl⟩ : ∃ c t', t = c :: t' := by
        cases t with
        | nil => exact absurd h.1.1.1 (by decide)
        | cons c t => exact ⟨c, t, rfl⟩
      simp [runText, bangOf]
    · rw [e]
      have hne : runText r ≠ [] := by
        cases r with
        | span s =>
          cases s with
          | text t => exact h.1.1
          | code t => simp [runText, spanText]
        | emph d strong inner => cases strong <;> simp [runText, emphMark]
        | link t => simp [runText]
        | direct image t url => simp [runText]
      obtain ⟨c, x, hx⟩ := List.exists_cons_of_ne_nil hne
      rw [hx]
      cases x with
      | nil =>
        have := reference_head a
        cases h1 : runsText (a.map asReference) <;> cases h2 : runsText a <;> simp_all
      | cons d x => simp

theorem splitOn_headD (c : Char) : ∀ s : List Char, (splitOn c s).headD [] = s.takeWhile (· ≠ c)
  | [] => by simp [splitOn]
  | d :: s => by
    by_cases h : d = c
    · subst h; rw [splitOn_head_sep]; simp
    · obtain ⟨w, ws, e1, e2⟩ := splitOn_cons_of_ne h s
      have := splitOn_headD c s
      rw [e1] at this
      rw [e2, List.headD_cons, List.takeWhile_cons_of_pos (by simpa using h), ← this]; rfl

open Classical in
/-- Lines without the addresses of other sites. -/
noncomputable def refLines (ls : List (List Char)) : List (List Char) :=
  if h : ∃ a, ContentReads ls a then splitOn '\n' (runsText (h.choose.map asReference)) else ls

noncomputable def refBlock : CoreBlock → CoreBlock
  | .heading level ls => .heading level (refLines ls)
  | .paragraph ls => .paragraph (refLines ls)
  | b => b

theorem refLines_eq {ls : List (List Char)} {a : List Run} (ha : ContentReads ls a) : refLines ls = splitOn '\n' (runsText (a.map asReference)) := by
  have h : ∃ a, ContentReads ls a := ⟨a, ha⟩
  rw [refLines, dif_pos h, content_unique h.choose_spec ha]

theorem refLines_reads {ls : List (List Char)} {a : List Run} (ha : ContentReads ls a) : ContentReads (refLines ls) (a.map asReference) :=
  ⟨by rw [refLines_eq ha, join_splitOn], reference_ok ha.2⟩

theorem refBlock_reference {b : CoreBlock} (h : CoreValid b) : ReferenceBlock b (refBlock b) := by
  cases b with
  | heading level ls => obtain ⟨a, ha⟩ := h.2.2.2; exact ⟨rfl, a, ha, refLines_eq ha⟩
  | paragraph ls => obtain ⟨a, ha⟩ := h.2.2; exact ⟨a, ha, refLines_eq ha⟩
  | code _ _ => exact ⟨rfl, rfl⟩
  | rule => trivial
  | definition _ _ => exact ⟨rfl, rfl⟩

/-- Valid blocks that stay lines of words. -/
def RefValid (b : CoreBlock) : Prop := CoreValid b ∧ WordLines (refBlock b)

theorem refLines_ne_nil {ls : List (List Char)} (h : ls ≠ []) : refLines ls ≠ [] := by
  unfold refLines
  split
  · exact splitOn_ne_nil _ _
  · exact h

theorem refBlock_valid {b : CoreBlock} (h : RefValid b) : CoreValid (refBlock b) := by
  obtain ⟨h, hw⟩ := h
  cases b with
  | heading level ls => obtain ⟨a, ha⟩ := h.2.2.2; exact ⟨h.1, refLines_ne_nil h.2.1, hw, _, refLines_reads ha⟩
  | paragraph ls => obtain ⟨a, ha⟩ := h.2.2; exact ⟨refLines_ne_nil h.1, hw, _, refLines_reads ha⟩
  | _ => exact h

/-- The lines begin as they did. -/
theorem refLines_two {ls : List (List Char)} (hne : ls ≠ []) (ht : ∀ l ∈ ls, TextLine l) {a : List Run} (ha : ContentReads ls a) :
    ((refLines ls).headD []).take 2 = (ls.headD []).take 2 := by
  have e : ls = splitOn '\n' (runsText a) := by
    rw [ha.1]; exact (splitOn_join hne fun l hl => textLine_nl (ht l hl)).symm
  rw [refLines_eq ha, splitOn_headD, List.take_takeWhile, reference_two ha.2]
  conv => rhs; rw [e, splitOn_headD, List.take_takeWhile]

theorem isPrefixOf_two {x y : List Char} (h : x.take 2 = y.take 2) : ['[', '!'].isPrefixOf x = ['[', '!'].isPrefixOf y := by
  rw [Bool.eq_iff_iff, List.isPrefixOf_iff_prefix, List.isPrefixOf_iff_prefix, List.prefix_iff_eq_take, List.prefix_iff_eq_take]
  simp [h]

theorem reference_subset (a : List Run) : runsText (a.map asReference) ⊆ runsText a := by
  intro c hc
  rw [runsText, List.flatMap_map] at hc
  obtain ⟨r, hr, hm⟩ := List.mem_flatMap.1 hc
  refine List.mem_flatMap.2 ⟨r, hr, ?_⟩
  rcases asReference_cases r with ⟨t, url, rfl, _, e⟩ | ⟨e, _⟩
  · rw [e] at hm
    simp only [runText, bangOf] at hm ⊢
    simp only [List.append_assoc, List.mem_append] at hm ⊢
    rcases hm with h | h | h <;> simp_all
  · rwa [e] at hm

theorem ref_tame : Tame RefValid refBlock where
  heading _ _ := ⟨_, rfl⟩
  paragraph _ := ⟨_, rfl⟩
  code _ _ := rfl
  rule := rfl
  definition _ _ := rfl
  cell c h0 hv := by
    obtain ⟨a, ha⟩ := hv.1.2.2
    have hc : runsText a = c := by rw [ha.1]; rfl
    have hn : '\n' ∉ runsText (a.map asReference) := fun hm =>
      textLine_nl (hv.1.2.1 c (by simp)) (hc ▸ reference_subset a hm)
    have e : refLines [c] = [runsText (a.map asReference)] := by rw [refLines_eq ha, splitOn_of_not_mem hn]
    refine ⟨_, by rw [refBlock, e], ?_, fun h hm => h (hc ▸ reference_subset a hm)⟩
    have hw : ∀ l ∈ refLines [c], TextLine l := hv.2
    rw [e] at hw
    exact hw _ (by simp)
  alert b hb := by
    cases b with
    | heading level ls =>
      obtain ⟨a, ha⟩ := hb.1.2.2.2
      exact isPrefixOf_two (refLines_two hb.1.2.1 hb.1.2.2.1 ha)
    | paragraph ls =>
      obtain ⟨a, ha⟩ := hb.1.2.2
      exact isPrefixOf_two (refLines_two hb.1.1 hb.1.2.1 ha)
    | _ => rfl

/-! ### The nodes -/

theorem endsDest_not_plain {c : Char} (h : endsDest c = true) : plainChar c = false ∧ c ∉ ['_', '=', '#'] := by
  have hn : c.toNat ≤ 127 := by
    simp only [endsDest, Bool.or_eq_true, decide_eq_true_eq] at h
    omega
  have key : ∀ n, n < 128 → endsDest (Char.ofNat n) = true → plainChar (Char.ofNat n) = false ∧ Char.ofNat n ∉ ['_', '=', '#'] := by
    decide +kernel
  have := key c.toNat (by omega)
  rw [Char.ofNat_toNat] at this
  exact this h

theorem balanced_without : ∀ {u : List Char}, '(' ∉ u → ')' ∉ u → balanced 0 u = true
  | [], _, _ => rfl
  | c :: u, h1, h2 => by
    rw [List.mem_cons, not_or] at h1 h2
    rw [balanced, if_neg (fun e => h1.1 e.symm), if_neg (fun e => h2.1 e.symm)]
    exact balanced_without h1.2 h2.2

theorem address_target {image : Bool} {t url : List Char} (h : AddressOk image t url) : TargetOk (url, []) := by
  refine ⟨?_, rfl, address_char h _ (.inl (by decide)) (by decide), by simp⟩
  have h1 : url.head? ≠ some '<' := fun e => address_char h '<' (.inl (by decide)) (by decide) (List.mem_of_head? e)
  have h2 : ∀ c ∈ url, endsDest c = false ∧ c ≠ '\\' := by
    intro c hc
    constructor
    · refine Bool.eq_false_iff.2 fun e => ?_
      obtain ⟨e1, e2⟩ := endsDest_not_plain e
      exact address_char h c (.inl e1) e2 hc
    · rintro rfl
      exact address_char h _ (.inl (by decide)) (by decide) hc
  have h3 := balanced_without (address_char h '(' (.inr (.inl rfl)) (by decide)) (address_char h ')' (.inr (.inr rfl)) (by decide))
  rw [plainUrl]
  simp only [Bool.and_eq_true, decide_eq_true_eq, List.all_eq_true, Bool.not_eq_true']
  exact ⟨⟨⟨h.1, h1⟩, h2⟩, h3⟩

/-- The links of the blocks lead to the same places, and those to other sites to their addresses. -/
structure Leads (links links1 : LinkMap) (b : CoreBlock) : Prop where
  link : ∀ t, HasLink t b → links1 t = links t
  site : ∀ t url, LeadsTo t url b → links1 t = some (url, [])

theorem runNodes_reference {src : List Char} {links links1 : LinkMap} : ∀ {a : List Run} {p : Option Char}, RunsOk p a →
    (∀ t, .link t ∈ a → links1 t = links t) → (∀ t url, .direct false t url ∈ a → external url → links1 t = some (url, [])) →
    ∀ {ns : List Node}, RunNodes src links a ns → RunNodes src links1 (a.map asReference) ns
  | [], _, _, _, _, ns, h => h
  | .span s :: r, _, hr, h1, h2, ns, h => by
    obtain ⟨a, b, e, hs, hb⟩ := h
    exact ⟨a, b, e, hs, runNodes_reference hr.2.2 (fun t ht => h1 t (by simp [ht])) (fun t u ht => h2 t u (by simp [ht])) hb⟩
  | .emph d strong inner :: r, _, hr, h1, h2, ns, h => by
    obtain ⟨p, cs, b, raw, e, hs, hst, hm, hl, hb⟩ := h
    exact ⟨p, cs, b, raw, e, hs, hst, hm, hl,
      runNodes_reference hr.2.2.2.2 (fun t ht => h1 t (by simp [ht])) (fun t u ht => h2 t u (by simp [ht])) hb⟩
  | .link t :: r, _, hr, h1, h2, ns, h => by
    obtain ⟨p, cs, b, raw, url, title, e, hl, hp, hst, hsrc, hb⟩ := h
    exact ⟨p, cs, b, raw, url, title, e, by rw [h1 t (by simp), hl], hp, hst, hsrc,
      runNodes_reference hr.2.2.2 (fun t ht => h1 t (by simp [ht])) (fun t u ht => h2 t u (by simp [ht])) hb⟩
  | .direct image t url :: r, _, hr, h1, h2, ns, h => by
    obtain ⟨p, cs, b, e, hp, hst, hb⟩ := h
    have ih := runNodes_reference hr.2.2.2 (fun t ht => h1 t (by simp [ht])) (fun t u ht => h2 t u (by simp [ht])) hb
    rw [List.map_cons]
    rcases asReference_cases (.direct image t url) with ⟨t', url', e', hx, e2⟩ | ⟨e2, _⟩
    · cases e'
      rw [e2]
      refine ⟨p, cs, b, _, url, [], e, h2 t url (by simp) hx, hp, hst, .inr ⟨['('] ++ url ++ [')'], by simp [runText, bangOf], ?_, ?_, hx, ?_⟩, ih⟩
      · rw [runText, ← List.append_assoc, List.getLast?_append]; simp
      · have ht := address_target hr.1.2
        have := readInlineTarget_plain (t := []) [] ht.1 ht.2.1
        simpa [titlePart] using this
      · simpa using hr.1.2.2.2
    · rw [e2]
      exact ⟨p, cs, b, e, hp, hst, ih⟩

theorem lineNodes_reference {src : List Char} {links links1 : LinkMap} {ls : List (List Char)} {ns : List Node}
    (h1 : ∀ a, ContentReads ls a → ∀ t, .link t ∈ a → links1 t = links t)
    (h2 : ∀ a, ContentReads ls a → ∀ t url, .direct false t url ∈ a → external url → links1 t = some (url, []))
    (h : LineNodes src links ls ns) : LineNodes src links1 (refLines ls) ns := by
  obtain ⟨a, ha, hn⟩ := h
  exact ⟨_, refLines_reads ha, runNodes_reference ha.2 (h1 a ha) (h2 a ha) hn⟩

theorem leafNode_reference {src : List Char} {links links1 : LinkMap} {b : CoreBlock} {n : Node} (hv : RefValid b) (hl : Leads links links1 b)
    (h : LeafNode src links b n) : LeafNode src links1 (refBlock b) n := by
  cases b with
  | heading level ls =>
    obtain ⟨p, cs, e, hc⟩ := h
    exact ⟨p, cs, e, lineNodes_reference (fun a ha t ht => hl.link t ⟨a, ha, ht⟩) (fun a ha t u ht hx => hl.site t u ⟨a, ha, ht, hx⟩) hc⟩
  | paragraph ls =>
    obtain ⟨p, cs, raw, e, hc, hs, hp, hn⟩ := h
    obtain ⟨a, ha⟩ := hv.1.2.2
    exact ⟨p, cs, raw, e, lineNodes_reference (fun a ha t ht => hl.link t ⟨a, ha, ht⟩) (fun a ha t u ht hx => hl.site t u ⟨a, ha, ht, hx⟩) hc,
      hs, by rw [refLines_two hv.1.1 hv.1.2.1 ha]; exact hp, hn⟩
  | _ => exact h

/-- A block that becomes one with references. -/
structure RefLeaf (links links1 : LinkMap) (b : CoreBlock) : Prop where
  valid : RefValid b
  leads : Leads links links1 b

theorem leafNodes_reference {src : List Char} {links links1 : LinkMap} : ∀ {bs : List CoreBlock} {ns : List Node}, (∀ b ∈ bs, RefLeaf links links1 b) →
    LeafNodes src links bs ns → LeafNodes src links1 (bs.map refBlock) ns
  | [], _, _, h => h
  | b :: bs, _, hb, h => by
    obtain ⟨n, rest, e, h1, h2⟩ := h
    exact ⟨n, rest, e, leafNode_reference (hb b (by simp)).valid (hb b (by simp)).leads h1, leafNodes_reference (fun c hc => hb c (by simp [hc])) h2⟩

theorem cellNodes_reference {src : List Char} {links links1 : LinkMap} : ∀ {cs : List (List Char)} {ns : List Node},
    (∀ b ∈ cellBlocks [cs], RefLeaf links links1 b) → CellNodes src links cs ns → CellNodes src links1 (cs.map (mapCell refBlock)) ns
  | [], _, _, h => h
  | c :: cs, _, hb, h => by
    obtain ⟨p, ks, rest, e, h1, h2⟩ := h
    rw [cellBlocks_cell] at hb
    refine ⟨p, ks, rest, e, ?_, cellNodes_reference (fun b hm => hb b (by simp [hm])) h2⟩
    by_cases h0 : c = []
    · rw [if_pos h0] at h1
      rw [if_pos (by rw [mapCell, if_pos h0])]; exact h1
    · rw [if_neg h0] at h1 hb
      have hc := hb (.paragraph [c]) (by simp)
      have ht := tame_cell ref_tame h0 hc.valid
      rw [if_neg (textLine_ne_nil ht.2.1)]
      have e : refLines [c] = [mapCell refBlock c] := by
        have := ht.1
        rw [refBlock] at this
        injection this
      rw [← e]
      exact lineNodes_reference (fun a ha t ht => hc.leads.link t ⟨a, ha, ht⟩) (fun a ha t u ht hx => hc.leads.site t u ⟨a, ha, ht, hx⟩) h1

theorem rowNodes_reference {src : List Char} {links links1 : LinkMap} : ∀ {rs : List (List (List Char))} {ns : List Node},
    (∀ b ∈ cellBlocks rs, RefLeaf links links1 b) → RowNodes src links rs ns → RowNodes src links1 (rs.map fun r => r.map (mapCell refBlock)) ns
  | [], _, _, h => h
  | r :: rs, _, hb, h => by
    obtain ⟨p, cs, rest, e, h1, h2⟩ := h
    rw [cellBlocks_cons] at hb
    exact ⟨p, cs, rest, e, cellNodes_reference (fun b hm => hb b (by simp [hm])) h1, rowNodes_reference (fun b hm => hb b (by simp [hm])) h2⟩

mutual

theorem treeNode_reference {src : List Char} {links links1 : LinkMap} : ∀ {b : TreeBlock} {n : Node},
    (∀ l ∈ leaves b, RefLeaf links links1 l) → TreeNode src links b n → TreeNode src links1 (mapTree refBlock b) n
  | .leaf g b, n, hb, h => by
    rw [TreeNode] at h
    rw [leaves] at hb
    rw [mapTree, TreeNode]
    exact leafNode_reference (hb b (by simp)).valid (hb b (by simp)).leads h
  | .quote g a bs, n, hb, h => by
    rw [TreeNode] at h
    rw [leaves] at hb
    rw [mapTree, TreeNode]
    obtain ⟨p, ns, e, h⟩ := h
    exact ⟨p, ns, e, leafNodes_reference hb h⟩
  | .list g s t items, n, hb, h => by
    rw [TreeNode] at h
    rw [leaves] at hb
    rw [mapTree, TreeNode]
    obtain ⟨p, ns, e, h⟩ := h
    exact ⟨p, ns, e, itemNodes_reference hb h⟩
  | .table g al rows, n, hb, h => by
    rw [TreeNode] at h
    rw [leaves] at hb
    rw [mapTree, TreeNode]
    obtain ⟨p, ns, e, h⟩ := h
    exact ⟨p, ns, e, rowNodes_reference hb h⟩

theorem itemNodes_reference {src : List Char} {links links1 : LinkMap} : ∀ {items : List (List TreeBlock)} {ns : List Node},
    (∀ l ∈ itemsLeaves items, RefLeaf links links1 l) → ItemNodes src links items ns → ItemNodes src links1 (mapItems refBlock items) ns
  | [], _, _, h => by rw [ItemNodes] at h; rw [mapItems, ItemNodes]; exact h
  | it :: its, _, hb, h => by
    rw [ItemNodes] at h
    rw [itemsLeaves] at hb
    rw [mapItems, ItemNodes]
    obtain ⟨p, cs, rest, e, h1, h2⟩ := h
    exact ⟨p, cs, rest, e, childNodes_reference (fun l hl => hb l (by simp [hl])) h1, itemNodes_reference (fun l hl => hb l (by simp [hl])) h2⟩

theorem childNodes_reference {src : List Char} {links links1 : LinkMap} : ∀ {bs : List TreeBlock} {prev : Option Node} {ns : List Node},
    (∀ l ∈ blocksLeaves bs, RefLeaf links links1 l) → ChildNodes src links prev bs ns → ChildNodes src links1 prev (mapTrees refBlock bs) ns
  | [], _, _, _, h => by rw [ChildNodes] at h; rw [mapTrees, ChildNodes]; exact h
  | b :: bs, prev, _, hb, h => by
    rw [ChildNodes] at h
    rw [blocksLeaves] at hb
    rw [mapTrees, ChildNodes]
    obtain ⟨n, rest, e, h1, h2, h3⟩ := h
    refine ⟨n, rest, e, treeNode_reference (fun l hl => hb l (by simp [hl])) h1, ?_, childNodes_reference (fun l hl => hb l (by simp [hl])) h3⟩
    intro m g s t its hm hl
    cases b with
    | list g' s' t' its' =>
      rw [mapTree] at hl
      injection hl with e1
      subst e1
      exact h2 m _ _ _ _ hm rfl
    | _ => rw [mapTree] at hl; cases hl

end

theorem topNodes_reference {src : List Char} {links links1 : LinkMap} : ∀ {bs : List TreeBlock} {ns : List Node},
    (∀ l ∈ blocksLeaves bs, RefLeaf links links1 l) → TopNodes src links bs ns → TopNodes src links1 (bs.map (mapTree refBlock)) ns
  | [], _, _, h => h
  | b :: bs, _, hb, h => by
    rw [blocksLeaves] at hb
    obtain ⟨n, rest, e, h1, h2⟩ := h
    exact ⟨n, rest, e, treeNode_reference (fun l hl => hb l (by simp [hl])) h1, topNodes_reference (fun l hl => hb l (by simp [hl])) h2⟩

/-! ### The document with references -/

open Classical in
/-- The content of a block. -/
noncomputable def contentOf : CoreBlock → List Run
  | .heading _ ls => if h : ∃ a, ContentReads ls a then h.choose else []
  | .paragraph ls => if h : ∃ a, ContentReads ls a then h.choose else []
  | _ => []

/-- The links to other sites in a block. -/
noncomputable def sitesOf (b : CoreBlock) : List (List Char × List Char) :=
  (contentOf b).filterMap fun r => match r with
    | .direct false t url => if external url then some (t, url) else none
    | _ => none

theorem mem_sites {a : List Run} {t url : List Char} : (t, url) ∈ (a.filterMap fun r => match r with
    | .direct false t url => if external url then some (t, url) else none
    | _ => none) ↔ .direct false t url ∈ a ∧ external url := by
  rw [List.mem_filterMap]
  constructor
  · rintro ⟨r, hr, h⟩
    split at h
    · split at h
      · rename_i hx
        cases h
        exact ⟨hr, hx⟩
      · cases h
    · cases h
  · rintro ⟨h1, h2⟩
    exact ⟨_, h1, by simp [h2]⟩

open Classical in
theorem sitesOf_mem {b : CoreBlock} {t url : List Char} : (t, url) ∈ sitesOf b ↔ LeadsTo t url b := by
  have lines : ∀ ls : List (List Char), ((Run.direct false t url ∈ if h : ∃ a, ContentReads ls a then h.choose else []) ∧ external url) ↔
      ∃ a, ContentReads ls a ∧ .direct false t url ∈ a ∧ external url := by
    intro ls
    constructor
    · intro h
      split at h
      · rename_i hx
        exact ⟨_, hx.choose_spec, h⟩
      · exact absurd h.1 (by simp)
    · rintro ⟨a, ha, h⟩
      have hx : ∃ a, ContentReads ls a := ⟨a, ha⟩
      rw [dif_pos hx, content_unique hx.choose_spec ha]
      exact h
  cases b with
  | heading _ ls => exact mem_sites.trans (lines ls)
  | paragraph ls => exact mem_sites.trans (lines ls)
  | _ => exact mem_sites.trans ⟨fun h => absurd h.1 (by simp [contentOf]), fun h => absurd h id⟩

/-- A definition for a link. -/
def siteDef (e : List Char × List Char) : TreeBlock := .leaf false (.definition e.1 (e.2, []))

/-- The document with references. -/
noncomputable def refDoc (d : List TreeBlock) : List TreeBlock := mapTrees refBlock d ++ ((blocksLeaves d).flatMap sitesOf).map siteDef

theorem leadsTo_ok {b : CoreBlock} {t url : List Char} (hv : CoreValid b) (h : LeadsTo t url b) : LinkOk t ∧ AddressOk false t url := by
  have runs : ∀ {a : List Run} {p : Option Char}, RunsOk p a → .direct false t url ∈ a → LinkOk t ∧ AddressOk false t url := by
    intro a
    induction a with
    | nil => intro p _ hm; cases hm
    | cons r a ih =>
      intro p hr hm
      rcases List.mem_cons.1 hm with rfl | hm'
      · exact hr.1
      · cases r with
        | span s => exact ih hr.2.2 hm'
        | emph d strong inner => exact ih hr.2.2.2.2 hm'
        | link t => exact ih hr.2.2.2 hm'
        | direct image t url => exact ih hr.2.2.2 hm'
  cases b with
  | heading level ls => obtain ⟨a, ha, hm, _⟩ := h; exact runs ha.2 hm
  | paragraph ls => obtain ⟨a, ha, hm, _⟩ := h; exact runs ha.2 hm
  | _ => exact absurd h id

theorem blocksLeaves_append (a b : List TreeBlock) : blocksLeaves (a ++ b) = blocksLeaves a ++ blocksLeaves b := by
  induction a with
  | nil => rw [List.nil_append, blocksLeaves]; rfl
  | cons x a ih => rw [List.cons_append, blocksLeaves, blocksLeaves, ih, List.append_assoc]

theorem definitions_append (a b : List CoreBlock) : definitions (a ++ b) = definitions a ++ definitions b := by
  induction a with
  | nil => rfl
  | cons x a ih => cases x <;> simp [definitions, ih]

theorem siteDefs_leaves : ∀ es : List (List Char × List Char), blocksLeaves (es.map siteDef) = es.map fun e => .definition e.1 (e.2, [])
  | [] => by rw [List.map_nil, blocksLeaves]; rfl
  | e :: es => by rw [List.map_cons, blocksLeaves, siteDefs_leaves es, siteDef, leaves]; rfl

theorem siteDefs_definitions : ∀ es : List (List Char × List Char),
    definitions (es.map fun e => CoreBlock.definition e.1 (e.2, [])) = es.map fun e => (e.1, (e.2, []))
  | [] => rfl
  | e :: es => by rw [List.map_cons, definitions, siteDefs_definitions es]; rfl

theorem refDoc_leaves {d : List TreeBlock} (hv : ∀ l ∈ blocksLeaves d, RefValid l) :
    blocksLeaves (refDoc d) = (blocksLeaves d).map refBlock ++ ((blocksLeaves d).flatMap sitesOf).map fun e => .definition e.1 (e.2, []) := by
  rw [refDoc, blocksLeaves_append, blocksLeaves_map ref_tame d hv, siteDefs_leaves]

theorem refDoc_shown (d : List TreeBlock) : shownTrees (refDoc d) = (shownTrees d).map (mapTree refBlock) := by
  rw [refDoc, shownTrees, List.filter_append, ← shownTrees, shownTrees_map ref_tame]
  rw [List.filter_eq_nil_iff.2, List.append_nil]
  intro b hb
  obtain ⟨e, _, rfl⟩ := List.mem_map.1 hb
  simp [siteDef, TreeBlock.isDefinition, CoreBlock.isDefinition]

theorem refDoc_links {d : List TreeBlock} (hv : ∀ l ∈ blocksLeaves d, RefValid l) :
    linksOf (refDoc d) = resolve (definitions (blocksLeaves d) ++ ((blocksLeaves d).flatMap sitesOf).map fun e => (e.1, (e.2, []))) := by
  rw [linksOf, refDoc_leaves hv, definitions_append, definitions_map ref_tame, siteDefs_definitions]

/-- All links lead where they did. -/
theorem refDoc_leads {d : List TreeBlock} (hv : ∀ l ∈ blocksLeaves d, RefValid l) (hc : ∀ l ∈ blocksLeaves d, HasContent (linksOf d) l)
    (ho : OneAddress (blocksLeaves d)) : ∀ b ∈ blocksLeaves d, Leads (linksOf d) (linksOf (refDoc d)) b := by
  intro b hb
  rw [refDoc_links hv]
  constructor
  · intro t ht
    have hs : (linksOf d t).isSome = true := by
      have := hc b hb
      cases b with
      | heading _ ls =>
        obtain ⟨a, ha, hm⟩ := ht
        obtain ⟨a', ha', hl⟩ := this
        exact hl t (content_unique ha ha' ▸ hm)
      | paragraph ls =>
        obtain ⟨a, ha, hm⟩ := ht
        obtain ⟨a', ha', hl⟩ := this
        exact hl t (content_unique ha ha' ▸ hm)
      | _ => exact absurd ht id
    rw [linksOf, resolve] at hs
    rw [resolve, linksOf, resolve, List.find?_append]
    cases hf : (definitions (blocksLeaves d)).find? (fun e => foldLabel e.1 = foldLabel t) with
    | none => rw [hf] at hs; cases hs
    | some x => rfl
  · intro t url ht
    obtain ⟨h1, h2⟩ := ho b hb t url ht
    have hmem : (t, (url, [])) ∈ definitions (blocksLeaves d) ++ ((blocksLeaves d).flatMap sitesOf).map (fun e => (e.1, (e.2, ([] : List Char)))) :=
      List.mem_append_right _ (List.mem_map.2 ⟨(t, url), List.mem_flatMap.2 ⟨b, hb, sitesOf_mem.2 ht⟩, rfl⟩)
    rw [resolve]
    cases hf : (definitions (blocksLeaves d) ++ ((blocksLeaves d).flatMap sitesOf).map (fun e => (e.1, (e.2, ([] : List Char))))).find?
        (fun e => foldLabel e.1 = foldLabel t) with
    | none =>
      have := List.find?_eq_none.1 hf _ hmem
      simp at this
    | some x =>
      have hx := List.find?_some hf
      have hm := List.mem_of_find?_eq_some hf
      simp only [decide_eq_true_eq] at hx
      rcases List.mem_append.1 hm with hm | hm
      · have := h2 x.1 x.2 hm hx
        rw [Option.map_some, this]
      · obtain ⟨e, he, rfl⟩ := List.mem_map.1 hm
        obtain ⟨c, hc, he⟩ := List.mem_flatMap.1 he
        have := h1 c hc e.1 e.2 (sitesOf_mem.1 he) hx
        rw [Option.map_some, this]

theorem refDoc_sound {d : List TreeBlock} (h : DocSound d) (hv : ∀ l ∈ blocksLeaves d, RefValid l) (ho : OneAddress (blocksLeaves d)) :
    DocSound (refDoc d) := by
  have hl := refDoc_leads hv h.content ho
  refine ⟨?_, ?_, ?_, ?_⟩
  · rw [refDoc_leaves hv]
    intro l hm
    rcases List.mem_append.1 hm with hm | hm
    · obtain ⟨b, hb, rfl⟩ := List.mem_map.1 hm
      exact refBlock_valid (hv b hb)
    · obtain ⟨e, he, rfl⟩ := List.mem_map.1 hm
      obtain ⟨b, hb, he⟩ := List.mem_flatMap.1 he
      have := leadsTo_ok (h.valid b hb) (sitesOf_mem.1 he)
      exact ⟨this.1, address_target this.2⟩
  · rw [refDoc_leaves hv]
    intro l hm info ls e
    rcases List.mem_append.1 hm with hm | hm
    · obtain ⟨b, hb, rfl⟩ := List.mem_map.1 hm
      have := h.tabs b hb
      cases b with
      | code info' ls' => exact this _ _ e
      | _ => cases e
    · obtain ⟨x, _, rfl⟩ := List.mem_map.1 hm
      cases e
  · rw [refDoc_leaves hv]
    intro l hm
    rcases List.mem_append.1 hm with hm | hm
    · obtain ⟨b, hb, rfl⟩ := List.mem_map.1 hm
      have lines : ∀ {ls : List (List Char)}, (∀ t, (∃ a, ContentReads ls a ∧ .link t ∈ a) → linksOf (refDoc d) t = linksOf d t) →
          (∀ t url, (∃ a, ContentReads ls a ∧ .direct false t url ∈ a ∧ external url) → linksOf (refDoc d) t = some (url, [])) →
          (∃ a, ContentReads ls a ∧ Linked (linksOf d) a) → ∃ a, ContentReads (refLines ls) a ∧ Linked (linksOf (refDoc d)) a := by
        rintro ls h1 h2 ⟨a, ha, hlk⟩
        refine ⟨_, refLines_reads ha, fun t ht => ?_⟩
        obtain ⟨r, hr, e⟩ := List.mem_map.1 ht
        rcases asReference_cases r with ⟨t', url, rfl, hx, e'⟩ | ⟨e', _⟩
        · rw [e'] at e
          cases e
          rw [h2 t url ⟨a, ha, hr, hx⟩]; rfl
        · rw [e'] at e
          subst e
          rw [h1 t ⟨a, ha, hr⟩]; exact hlk t hr
      have hlb := hl b hb
      have hcb := h.content b hb
      cases b with
      | heading level ls => exact lines hlb.link hlb.site hcb
      | paragraph ls => exact lines hlb.link hlb.site hcb
      | _ => trivial
    · obtain ⟨x, _, rfl⟩ := List.mem_map.1 hm
      trivial
  · rw [wellBlocks_iff]
    intro b hb
    rcases List.mem_append.1 hb with hb | hb
    · exact wellBlocks_iff.1 (wellBlocks_map ref_tame d hv h.well) b hb
    · obtain ⟨x, _, rfl⟩ := List.mem_map.1 hb
      rw [siteDef, Well]; trivial

theorem refDoc_document {src : List Char} {d : List TreeBlock} {root : Node} (hv : ∀ l ∈ blocksLeaves d, RefValid l)
    (hc : ∀ l ∈ blocksLeaves d, HasContent (linksOf d) l) (ho : OneAddress (blocksLeaves d)) (h : IsDocument src d root) :
    IsDocument src (refDoc d) root := by
  obtain ⟨p, ns, e, h⟩ := h
  refine ⟨p, ns, e, ?_⟩
  rw [refDoc_shown]
  exact topNodes_reference (fun l hl => ⟨hv l (shown_leaf hl), refDoc_leads hv hc ho l (shown_leaf hl)⟩) h

theorem refDoc_regular {d : List TreeBlock} (h : regularBlocks d = true) : regularBlocks (refDoc d) = true := by
  rw [regularBlocks_iff]
  intro b hb
  rcases List.mem_append.1 hb with hb | hb
  · exact regularBlocks_iff.1 (regularBlocks_map ref_tame d h) b hb
  · obtain ⟨x, _, rfl⟩ := List.mem_map.1 hb
    rw [siteDef, regular]

theorem refDoc_follows {d : List TreeBlock} (h : follows notBothLists (shownTrees d) = true) : follows notBothLists (shownTrees (refDoc d)) = true := by
  rw [refDoc_shown, follows_map (mapTree_notBothLists ref_tame)]
  exact h

theorem refDoc_marks {cx : Cx} {d : List TreeBlock} (hv : ∀ l ∈ blocksLeaves d, RefValid l) (h : ∀ b ∈ blocksLeaves d, BlockSites cx b) :
    ∀ b ∈ blocksLeaves (refDoc d), BlockMarks cx b := by
  rw [refDoc_leaves hv]
  intro l hm
  rcases List.mem_append.1 hm with hm | hm
  · obtain ⟨b, hb, rfl⟩ := List.mem_map.1 hm
    exact (h b hb _ (refBlock_reference (hv b hb).1)).2
  · obtain ⟨x, _, rfl⟩ := List.mem_map.1 hm
    trivial

theorem refValid_of {cx : Cx} {d : List TreeBlock} (h : DocSound d) (hf : ∀ b ∈ blocksLeaves d, BlockSites cx b) : ∀ l ∈ blocksLeaves d, RefValid l :=
  fun l hl => ⟨h.valid l hl, (hf l hl _ (refBlock_reference (h.valid l hl))).1⟩

end Hongdown.Model
