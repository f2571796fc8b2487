import Verif.Lemmas.NestedLinks

/-!
# Nested documents with their paragraphs, headings and cells replaced
-/

namespace Hongdown.Model
open Spec

/-- Headings become headings, paragraphs become paragraphs, all else stays. Cells stay cells, and no text
becomes or ceases to be the marker of an alert. -/
structure Tame (P : CoreBlock → Prop) (f : CoreBlock → CoreBlock) : Prop where
  heading : ∀ level ls, ∃ ls', f (.heading level ls) = .heading level ls'
  paragraph : ∀ ls, ∃ ls', f (.paragraph ls) = .paragraph ls'
  code : ∀ info ls, f (.code info ls) = .code info ls
  rule : f .rule = .rule
  definition : ∀ label target, f (.definition label target) = .definition label target
  cell : ∀ c, c ≠ [] → P (.paragraph [c]) → ∃ c', f (.paragraph [c]) = .paragraph [c'] ∧ TextLine c' ∧ ('|' ∉ c → '|' ∉ c')
  alert : ∀ b, P b → alertLike [f b] = alertLike [b]

variable {P : CoreBlock → Prop} {f : CoreBlock → CoreBlock}

/-- The kind of a block stays. -/
theorem Tame.cases (hf : Tame P f) (b : CoreBlock) : (∃ level ls ls', b = .heading level ls ∧ f b = .heading level ls') ∨
    (∃ ls ls', b = .paragraph ls ∧ f b = .paragraph ls') ∨ (f b = b ∧ (∃ info ls, b = .code info ls) ∨ f b = b ∧ b = .rule ∨
      f b = b ∧ ∃ label target, b = .definition label target) := by
  cases b with
  | heading level ls => obtain ⟨ls', e⟩ := hf.heading level ls; exact .inl ⟨_, _, _, rfl, e⟩
  | paragraph ls => obtain ⟨ls', e⟩ := hf.paragraph ls; exact .inr (.inl ⟨_, _, rfl, e⟩)
  | code info ls => exact .inr (.inr (.inl ⟨hf.code _ _, _, _, rfl⟩))
  | rule => exact .inr (.inr (.inr (.inl ⟨hf.rule, rfl⟩)))
  | definition label target => exact .inr (.inr (.inr (.inr ⟨hf.definition _ _, _, _, rfl⟩)))

/-- What only depends on the kind of a block stays. -/
theorem Tame.same (hf : Tame P f) {α : Sort _} {g : CoreBlock → α} (h1 : ∀ level ls ls', g (.heading level ls) = g (.heading level ls'))
    (h2 : ∀ ls ls', g (.paragraph ls) = g (.paragraph ls')) (b : CoreBlock) : g (f b) = g b := by
  rcases hf.cases b with ⟨l, ls, ls', rfl, e⟩ | ⟨ls, ls', rfl, e⟩ | ⟨e, _⟩ | ⟨e, _⟩ | ⟨e, _⟩
  · rw [e]; exact h1 _ _ _
  · rw [e]; exact h2 _ _
  · rw [e]
  · rw [e]
  · rw [e]

theorem tame_isDefinition (hf : Tame P f) (b : CoreBlock) : (f b).isDefinition = b.isDefinition :=
  hf.same (fun _ _ _ => rfl) (fun _ _ => rfl) b

theorem mapTree_isDefinition (hf : Tame P f) (b : TreeBlock) : (mapTree f b).isDefinition = b.isDefinition := by
  cases b with
  | leaf g b => rw [mapTree]; exact tame_isDefinition hf b
  | _ => rw [mapTree]; rfl

theorem tame_cell (hf : Tame P f) {c : List Char} (h0 : c ≠ []) (hp : P (.paragraph [c])) :
    f (.paragraph [c]) = .paragraph [mapCell f c] ∧ TextLine (mapCell f c) ∧ ('|' ∉ c → '|' ∉ mapCell f c) := by
  obtain ⟨c', e, h⟩ := hf.cell c h0 hp
  have : mapCell f c = c' := by rw [mapCell, if_neg h0, e]
  rw [this]
  exact ⟨e, h⟩

theorem cellBlocks_map (hf : Tame P f) {rows : List (List (List Char))} (hv : ∀ b ∈ cellBlocks rows, P b) :
    cellBlocks (rows.map fun r => r.map (mapCell f)) = (cellBlocks rows).map f := by
  have row : ∀ r : List (List Char), (∀ b ∈ cellBlocks [r], P b) → cellBlocks [r.map (mapCell f)] = (cellBlocks [r]).map f := by
    intro r
    induction r with
    | nil => intro _; rfl
    | cons c cs ih =>
      intro h
      rw [cellBlocks_cell] at h
      rw [List.map_cons, cellBlocks_cell, cellBlocks_cell, List.map_append, ih fun b hb => h b (by simp [hb])]
      by_cases h0 : c = []
      · subst h0; rfl
      · have hc := tame_cell hf h0 (h _ (by rw [if_neg h0]; simp))
        rw [if_neg h0, if_neg (textLine_ne_nil hc.2.1), List.map_cons, hc.1]; rfl
  induction rows with
  | nil => rfl
  | cons r rows ih =>
    rw [cellBlocks_cons] at hv
    rw [List.map_cons, cellBlocks_cons, cellBlocks_cons r, List.map_append, row r fun b hb => hv b (by simp [hb]), ih fun b hb => hv b (by simp [hb])]

mutual

theorem leaves_map (hf : Tame P f) : ∀ b : TreeBlock, (∀ l ∈ leaves b, P l) → leaves (mapTree f b) = (leaves b).map f
  | .leaf g b, _ => by rw [mapTree, leaves, leaves]; rfl
  | .quote g a bs, _ => by rw [mapTree, leaves, leaves]
  | .list g s t items, h => by
    rw [leaves] at h
    rw [mapTree, leaves, leaves, itemsLeaves_map hf items h]
  | .table g al rows, h => by
    rw [leaves] at h
    rw [mapTree, leaves, leaves, cellBlocks_map hf h]

theorem itemsLeaves_map (hf : Tame P f) : ∀ items : List (List TreeBlock), (∀ l ∈ itemsLeaves items, P l) →
    itemsLeaves (mapItems f items) = (itemsLeaves items).map f
  | [], _ => by rw [mapItems, itemsLeaves]; rfl
  | it :: its, h => by
    rw [itemsLeaves] at h
    rw [mapItems, itemsLeaves, itemsLeaves, List.map_append, blocksLeaves_map hf it fun l hl => h l (by simp [hl]),
      itemsLeaves_map hf its fun l hl => h l (by simp [hl])]

theorem blocksLeaves_map (hf : Tame P f) : ∀ bs : List TreeBlock, (∀ l ∈ blocksLeaves bs, P l) →
    blocksLeaves (mapTrees f bs) = (blocksLeaves bs).map f
  | [], _ => by rw [mapTrees, blocksLeaves]; rfl
  | b :: bs, h => by
    rw [blocksLeaves] at h
    rw [mapTrees, blocksLeaves, blocksLeaves, List.map_append, leaves_map hf b fun l hl => h l (by simp [hl]),
      blocksLeaves_map hf bs fun l hl => h l (by simp [hl])]

end

theorem mapTree_gap (hf : Tame P f) (b : TreeBlock) : (mapTree f b).gap = b.gap := by cases b <;> rw [mapTree] <;> rfl

theorem mapTree_isPara (hf : Tame P f) (b : TreeBlock) : (mapTree f b).isPara = b.isPara := by
  cases b with
  | leaf g b => rw [mapTree]; exact hf.same (g := fun b => (TreeBlock.leaf g b).isPara) (fun _ _ _ => rfl) (fun _ _ => rfl) b
  | _ => rw [mapTree]; rfl

theorem mapTree_mayStandAfter (hf : Tame P f) (a b : TreeBlock) : mayStandAfter (mapTree f a) (mapTree f b) = mayStandAfter a b := by
  have left : ∀ a b, mayStandAfter (mapTree f a) b = mayStandAfter a b := by
    intro a b
    cases b with
    | leaf g' b =>
      cases a with
      | leaf g a =>
        rw [mapTree]
        exact hf.same (g := fun a => mayStandAfter (.leaf g a) (.leaf g' b)) (fun _ _ _ => by cases b <;> rfl) (fun _ _ => by cases b <;> rfl) a
      | _ => rw [mapTree]; cases b <;> rfl
    | _ =>
      cases a with
      | leaf g a => rw [mapTree]; exact hf.same (g := fun a => mayStandAfter (.leaf g a) _) (fun _ _ _ => rfl) (fun _ _ => rfl) a
      | _ => rw [mapTree]; rfl
  have right : ∀ a b, mayStandAfter a (mapTree f b) = mayStandAfter a b := by
    intro a b
    cases b with
    | leaf g b =>
      rw [mapTree]
      refine hf.same (g := fun b => mayStandAfter a (.leaf g b)) (fun _ _ _ => ?_) (fun _ _ => ?_) b
      · cases a with
        | leaf g a => cases a <;> rfl
        | _ => rfl
      · cases a with
        | leaf g a => cases a <;> rfl
        | _ => rfl
    | _ =>
      rw [mapTree]
      cases a with
      | leaf g a => cases a <;> rfl
      | _ => rfl
  rw [left, right]

theorem mapTree_notBothLists (hf : Tame P f) (a b : TreeBlock) : notBothLists (mapTree f a) (mapTree f b) = notBothLists a b := by
  cases a <;> cases b <;> rw [mapTree, mapTree] <;> rfl

theorem follows_map {ok : TreeBlock → TreeBlock → Bool} {f : TreeBlock → TreeBlock} (h : ∀ a b, ok (f a) (f b) = ok a b) :
    ∀ bs : List TreeBlock, follows ok (bs.map f) = follows ok bs
  | [] => rfl
  | [_] => rfl
  | a :: b :: bs => by
    rw [List.map_cons, List.map_cons, follows, follows, h, ← List.map_cons, follows_map h (b :: bs)]

mutual

theorem regular_map (hf : Tame P f) : ∀ b : TreeBlock, regular b = true → regular (mapTree f b) = true
  | .leaf g b, _ => by rw [mapTree, regular]
  | .quote g a bs, h => by
    rw [regular] at h
    rw [mapTree, regular]
    have : ∀ b, CoreBlock.staysInQuote (f b) = CoreBlock.staysInQuote b := hf.same (fun _ _ _ => rfl) (fun _ _ => rfl)
    simpa [List.all_map, this] using h
  | .list g s t items, h => by
    rw [regular, Bool.and_eq_true] at h
    rw [mapTree, regular, Bool.and_eq_true]
    refine ⟨?_, regularItems_map hf items h.2⟩
    rw [mapItems_eq, List.length_map]; exact h.1
  | .table g al rows, _ => by rw [mapTree, regular]

theorem regularItems_map (hf : Tame P f) : ∀ items : List (List TreeBlock), regularItems items = true → regularItems (mapItems f items) = true
  | [], _ => by rw [mapItems, regularItems]
  | it :: its, h => by
    rw [regularItems, Bool.and_eq_true, Bool.and_eq_true, Bool.and_eq_true] at h
    rw [mapItems, regularItems, regularItems_map hf its h.2, regularBlocks_map hf it h.1.2, mapTrees_eq,
      follows_map (mapTree_mayStandAfter hf), h.1.1.2, List.head?_map]
    have := h.1.1.1
    cases hh : it.head? with
    | none => rw [hh] at this; cases this
    | some b =>
      rw [hh] at this
      simpa [mapTree_isPara hf] using this

theorem regularBlocks_map (hf : Tame P f) : ∀ bs : List TreeBlock, regularBlocks bs = true → regularBlocks (mapTrees f bs) = true
  | [], _ => by rw [mapTrees, regularBlocks]
  | b :: bs, h => by
    rw [regularBlocks, Bool.and_eq_true] at h
    rw [mapTrees, regularBlocks, regularBlocks_map hf bs h.2, show regular (mapTree f b) = true from regular_map hf b h.1]; rfl

end

theorem alertLike_map (hf : Tame P f) {bs : List CoreBlock} (hv : ∀ b ∈ bs, P b) : alertLike (bs.map f) = alertLike bs := by
  have head : ∀ b bs, alertLike (b :: bs) = alertLike [b] := fun b bs => by cases b <;> rfl
  cases bs with
  | nil => rfl
  | cons b bs => rw [List.map_cons, head, head b, hf.alert b (hv b (by simp))]

theorem cell_mem {rows : List (List (List Char))} {r : List (List Char)} {c : List Char} (hr : r ∈ rows) (hc : c ∈ r) (h0 : c ≠ []) :
    CoreBlock.paragraph [c] ∈ cellBlocks rows := by
  induction rows with
  | nil => cases hr
  | cons x rows ih =>
    rw [cellBlocks_cons]
    rcases List.mem_cons.1 hr with rfl | hr
    · refine List.mem_append_left _ ?_
      clear ih hr
      induction r with
      | nil => cases hc
      | cons y r ih =>
        rw [cellBlocks_cell]
        rcases List.mem_cons.1 hc with rfl | hc
        · rw [if_neg h0]; simp
        · exact List.mem_append_right _ (ih hc)
    · exact List.mem_append_right _ (ih hr)

mutual

theorem well_map (hf : Tame P f) : ∀ b : TreeBlock, (∀ l ∈ leaves b, P l) → Well b → Well (mapTree f b)
  | .leaf g b, _, _ => by rw [mapTree, Well]; trivial
  | .quote g a bs, hv, h => by
    rw [Well] at h
    rw [leaves] at hv
    rw [mapTree, Well]
    refine ⟨?_, fun ha => by rw [alertLike_map hf hv]; exact h.2 ha⟩
    intro b hb
    obtain ⟨c, hc, rfl⟩ := List.mem_map.1 hb
    rw [tame_isDefinition hf]; exact h.1 c hc
  | .list g s t items, hv, h => by
    rw [Well] at h
    rw [leaves] at hv
    have hg : gaps (mapItems f items) = gaps items := by
      rw [gaps, gaps, mapItems_eq, List.any_map]
      congr 1
      funext it
      simp only [Function.comp_apply, List.any_map]
      congr 1
      funext b
      exact mapTree_gap hf b
    rw [mapTree, Well, hg]
    refine ⟨?_, h.2.1, ?_, wellItems_map hf items hv h.2.2.2⟩
    · rw [mapItems_eq]; simpa using h.1
    · rw [mapItems_eq, List.length_map]; exact h.2.2.1
  | .table g al rows, hv, h => by
    rw [Well] at h
    rw [leaves] at hv
    rw [mapTree, Well]
    refine ⟨h.1, by simpa using h.2.1, ?_⟩
    intro r' hr'
    obtain ⟨r, hr, rfl⟩ := List.mem_map.1 hr'
    refine ⟨by rw [List.length_map]; exact (h.2.2 r hr).1, ?_⟩
    intro c' hc'
    obtain ⟨c, hc, rfl⟩ := List.mem_map.1 hc'
    by_cases h0 : c = []
    · left; rw [mapCell, if_pos h0]
    · have hcell := tame_cell hf h0 (hv _ (cell_mem hr hc h0))
      rcases (h.2.2 r hr).2 c hc with e | ⟨h1, h2⟩
      · exact absurd e h0
      · exact .inr ⟨hcell.2.1, hcell.2.2 h2⟩

theorem wellItems_map (hf : Tame P f) : ∀ items : List (List TreeBlock), (∀ l ∈ itemsLeaves items, P l) →
    WellItems items → WellItems (mapItems f items)
  | [], _, _ => by rw [mapItems, WellItems]; trivial
  | it :: its, hv, h => by
    rw [WellItems] at h
    rw [itemsLeaves] at hv
    rw [mapItems, WellItems]
    refine ⟨?_, ?_, wellBlocks_map hf it (fun l hl => hv l (by simp [hl])) h.2.2.1, wellItems_map hf its (fun l hl => hv l (by simp [hl])) h.2.2.2⟩
    · have := h.1
      rw [mapTrees_eq, List.head?_map]
      cases hh : it.head? with
      | none => rfl
      | some b =>
        rw [hh] at this
        simpa [mapTree_gap hf] using this
    · rw [mapTrees_eq, List.any_map]
      rw [← h.2.1]
      congr 1
      funext b
      exact mapTree_isDefinition hf b

theorem wellBlocks_map (hf : Tame P f) : ∀ bs : List TreeBlock, (∀ l ∈ blocksLeaves bs, P l) →
    WellBlocks bs → WellBlocks (mapTrees f bs)
  | [], _, _ => by rw [mapTrees, WellBlocks]; trivial
  | b :: bs, hv, h => by
    rw [WellBlocks] at h
    rw [blocksLeaves] at hv
    rw [mapTrees, WellBlocks]
    exact ⟨well_map hf b (fun l hl => hv l (by simp [hl])) h.1, wellBlocks_map hf bs (fun l hl => hv l (by simp [hl])) h.2⟩

end

theorem definitions_map (hf : Tame P f) : ∀ bs : List CoreBlock, definitions (bs.map f) = definitions bs
  | [] => rfl
  | b :: bs => by
    have ih := definitions_map hf bs
    have head : ∀ b bs, definitions (b :: bs) = definitions [b] ++ definitions bs := fun b bs => by cases b <;> rfl
    rw [List.map_cons, head, head b, ih, hf.same (g := fun b => definitions [b]) (fun _ _ _ => rfl) (fun _ _ => rfl) b]

theorem linksOf_map (hf : Tame P f) {d : List TreeBlock} (hv : ∀ l ∈ blocksLeaves d, P l) :
    linksOf (mapTrees f d) = linksOf d := by
  unfold linksOf
  rw [blocksLeaves_map hf d hv, definitions_map hf]

theorem shownTrees_map (hf : Tame P f) (d : List TreeBlock) : shownTrees (mapTrees f d) = (shownTrees d).map (mapTree f) := by
  rw [mapTrees_eq, shownTrees, shownTrees, List.filter_map]
  congr 2
  funext b
  simp only [Function.comp_apply]
  rw [show (mapTree f b).isDefinition = b.isDefinition from mapTree_isDefinition hf b]

end Hongdown.Model
