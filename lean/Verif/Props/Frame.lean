import Verif.Lemmas.DocRun
import Verif.Lemmas.Text
import Verif.Lemmas.Names
import Verif.Props.Refs

/-!
# Serializing whole trees: C48, and C18, C19, C21, C63 for documents
-/

namespace Hongdown.Props
open Model Spec

/-! ### C48: a block leaves the context as it was -/

/-- **C48.** Whatever a node contains: its serialization appends to the output and to the
warnings, writes no definitions, and leaves list, quote, indentation and description
contexts, the skip mode and the noun lists as they were. -/
theorem c48_frame (cx : Cx) (n : Node) (nb : Bool) (st : St) (hw : wellPlaced n = true)
    (hi : isItemLike n = false) :
    let r := ser cx n nb st
    st.output <+: r.output ∧ st.warnings <+: r.warnings ∧
    r.listItemIndex = st.listItemIndex ∧ r.listType = st.listType ∧ r.listTight = st.listTight ∧
    r.inBlockQuote = st.inBlockQuote ∧ r.blockquotePrefix = st.blockquotePrefix ∧
    r.listDepth = st.listDepth ∧ r.inDescriptionDetails = st.inDescriptionDetails ∧
    r.orderedListMaxItems = st.orderedListMaxItems ∧ r.listItemIndent = st.listItemIndent ∧
    r.blockquoteOuterIndent = st.blockquoteOuterIndent ∧
    r.blockquoteEntryListDepth = st.blockquoteEntryListDepth ∧
    (st.descriptionDetailsFirstList = false → r.descriptionDetailsFirstList = false) ∧
    r.skipMode = st.skipMode ∧ r.directiveProperNouns = st.directiveProperNouns ∧
    r.directiveCommonNouns = st.directiveCommonNouns ∧
    r.emittedReferences = st.emittedReferences ∧
    r.footnotes.emitted = st.footnotes.emitted ∧
    (st.footnotes.collecting = false → r.footnotes.collecting = false) := by
  have h := (ser_ok cx n nb hw).act hi st
  obtain ⟨h1, h2, h3, h4, h5, h6, h7, h8, h9, h10, h11⟩ := ctx_eq h.ctx
  exact ⟨h.out, h.core.warnings, h1, h2, h3, h4, h5, h6, h7, h8, h9, h10, h11, h.dd, h.core.skip,
    h.core.proper, h.core.common, h.core.emitted, h.core.fnEmitted, h.core.collecting⟩

/-- **C48.** An item only counts itself: the item index grows by one, everything else is as
before. -/
theorem c48_item (cx : Cx) (n : Node) (nb : Bool) (st : St) (hw : wellPlaced n = true)
    (hi : isItemLike n = true) :
    let r := ser cx n nb st
    st.output <+: r.output ∧ st.warnings <+: r.warnings ∧
    r.listItemIndex = st.listItemIndex + 1 ∧ r.listType = st.listType ∧ r.listTight = st.listTight ∧
    r.inBlockQuote = st.inBlockQuote ∧ r.blockquotePrefix = st.blockquotePrefix ∧
    r.listDepth = st.listDepth ∧ r.inDescriptionDetails = st.inDescriptionDetails ∧
    r.orderedListMaxItems = st.orderedListMaxItems ∧ r.listItemIndent = st.listItemIndent ∧
    r.blockquoteOuterIndent = st.blockquoteOuterIndent ∧
    r.blockquoteEntryListDepth = st.blockquoteEntryListDepth ∧ r.skipMode = st.skipMode ∧
    r.emittedReferences = st.emittedReferences ∧
    r.footnotes.emitted = st.footnotes.emitted := by
  have h := ser_ok cx n nb hw st
  rw [kidStart, if_pos hi] at h
  obtain ⟨h1, h2, h3, h4, h5, h6, h7, h8, h9, h10, h11⟩ := ctx_eq h.ctx
  exact ⟨h.out, h.core.warnings, h1, h2, h3, h4, h5, h6, h7, h8, h9, h10, h11, h.core.skip,
    h.core.emitted, h.core.fnEmitted⟩

theorem blocks_of {cx : Cx} {cs : List Node} (h : wellPlacedDoc cs = true) :
    (∀ k ∈ serKids cx cs, KidOk cx k) ∧ Blocks (serKids cx cs) := by
  rw [wellPlacedDoc, Bool.and_eq_true] at h
  refine ⟨serKids_ok cx cs h.2, fun k hk => ?_⟩
  have hm : k.node ∈ (serKids cx cs).map (·.node) := List.mem_map.mpr ⟨k, hk, rfl⟩
  rw [serKids_nodes] at hm
  simpa using List.all_eq_true.mp h.1 _ hm

/-- **C48.** A document, with all its directives and flushes, also only appends. -/
theorem c48_document (cx : Cx) (p : Pos) (cs : List Node) (nb : Bool) (st : St)
    (h : wellPlacedDoc cs = true) :
    let r := ser cx (.mk .document p cs) nb st
    st.output <+: r.output ∧ st.warnings <+: r.warnings ∧ r.listDepth = st.listDepth ∧
    r.listType = st.listType ∧ r.listItemIndent = st.listItemIndent ∧
    r.blockquotePrefix = st.blockquotePrefix ∧ r.inBlockQuote = st.inBlockQuote ∧
    r.inDescriptionDetails = st.inDescriptionDetails := by
  obtain ⟨hk, hb⟩ := blocks_of (cx := cx) h
  have g := serDocument_grows hk hb st
  obtain ⟨h1, h2, h3, h4, h5, h6, h7, h8, h9, h10, h11⟩ := ctx_eq g.ctx
  intro r
  have e : r = serDocument cx (serKids cx cs) st := by simp only [r, ser, dispatch]
  rw [e]
  exact ⟨g.out, g.warnings, h6, h2, h9, h5, h4, h7⟩

/-- A list in a block quote in a list. -/
def exNested : Node :=
  let p : Pos := ⟨1, 1, 1, 1⟩
  let par (s : String) : Node := .mk .paragraph p [.mk (.text s.toList) p []]
  .mk (.list .bullet true) p [.mk .item p [par "a", .mk .blockQuote p
    [.mk (.list .ordered true) p [.mk .item p [par "b"], .mk (.taskItem (some 'x')) p [par "c"]]]],
    .mk .item p [par "d"]]

example : wellPlaced exNested = true := by decide +kernel
example : (ser codeCx exNested false { output := "t\n\n".toList }).output =
    "t\n\n -  a\n\n> 1.  b\n> 2.  [x] c\n -  d\n".toList := by decide +kernel

/-! ### C64: blocks are rendered independently of each other -/

/-- Two states with the same context: everything but the output, the references, the
footnotes, the warnings and the skip mode. -/
structure SameContext (a b : St) : Prop where
  listItemIndex : a.listItemIndex = b.listItemIndex
  listType : a.listType = b.listType
  listTight : a.listTight = b.listTight
  inBlockQuote : a.inBlockQuote = b.inBlockQuote
  blockquotePrefix : a.blockquotePrefix = b.blockquotePrefix
  listDepth : a.listDepth = b.listDepth
  inDescriptionDetails : a.inDescriptionDetails = b.inDescriptionDetails
  descriptionDetailsFirstList : a.descriptionDetailsFirstList = b.descriptionDetailsFirstList
  orderedListMaxItems : a.orderedListMaxItems = b.orderedListMaxItems
  listItemIndent : a.listItemIndent = b.listItemIndent
  blockquoteOuterIndent : a.blockquoteOuterIndent = b.blockquoteOuterIndent
  blockquoteEntryListDepth : a.blockquoteEntryListDepth = b.blockquoteEntryListDepth
  properNouns : a.directiveProperNouns = b.directiveProperNouns
  commonNouns : a.directiveCommonNouns = b.directiveCommonNouns

theorem SameContext.view {a b : St} (h : SameContext a b) : view a = view b := by
  obtain ⟨h1, h2, h3, h4, h5, h6, h7, h8, h9, h10, h11, h12, h13, h14⟩ := h
  simp only [Hongdown.view, St.mk.injEq]
  simp [*]

theorem sameContext_of_view {a b : St} (h : view a = view b) : SameContext a b := by
  simp only [Hongdown.view, St.mk.injEq] at h
  obtain ⟨_, h1, h2, h3, h4, h5, _, _, _, h6, _, h7, h8, _, h9, h10, h11, h12, h13, h14, _⟩ := h
  exact ⟨h1, h2, h3, h4, h5, h6, h7, h8, h9, h10, h11, h12, h13, h14⟩

/-- **C64.** What a block writes depends only on its context: not on what was written
before, nor on the references, footnotes and warnings so far. -/
theorem c64_independent (cx : Cx) (n : Node) (nb : Bool) (a b : St) (hw : wellPlaced n = true)
    (h : SameContext a b) :
    SameContext (ser cx n nb a) (ser cx n nb b) ∧
    ∃ t, (ser cx n nb a).output = a.output ++ t ∧ (ser cx n nb b).output = b.output ++ t := by
  obtain ⟨h1, h2⟩ := ser_par cx n nb hw a b h.view
  exact ⟨sameContext_of_view h1, h2⟩

example : SameContext
    { output := "x".toList, emittedReferences := ["a".toList], skipMode := .disabled }
    { pendingReferences := [("b".toList, ⟨"b".toList, "u".toList, []⟩)] } :=
  ⟨rfl, rfl, rfl, rfl, rfl, rfl, rfl, rfl, rfl, rfl, rfl, rfl, rfl, rfl⟩
example : (ser codeCx exNested false {}).output =
    " -  a\n\n> 1.  b\n> 2.  [x] c\n -  d\n".toList := by decide +kernel

/-! ### C18, C19, C21 for documents -/

/-- All references which serializing the blocks adds: for C19 below, which of them there
are matters only in that they must agree on their labels. -/
def documentRefs (cx : Cx) (cs : List Node) : List Ref := (usesList cx cs).may

theorem usesList_mem {cx : Cx} {cs : List Node} {n : Node} (h : n ∈ cs) {r : Ref} :
    (r ∈ (uses cx n).must → r ∈ (usesList cx cs).must) ∧
    (r ∈ (uses cx n).may → r ∈ (usesList cx cs).may) := by
  induction cs with
  | nil => simp at h
  | cons c cs ih =>
    rw [usesList]
    simp only [Uses.append_must, Uses.append_may, List.mem_append]
    rcases List.mem_cons.mp h with rfl | h
    · exact ⟨.inl, .inl⟩
    · exact ⟨fun hr => .inr ((ih h).1 hr), fun hr => .inr ((ih h).2 hr)⟩

mutual
theorem uses_sub (cx : Cx) : ∀ (n : Node) (r : Ref), r ∈ (uses cx n).must → r ∈ (uses cx n).may
  | .mk v p cs, r, h => by
    have ih := usesList_sub cx cs r
    cases v <;> simp only [uses] at h ⊢ <;> try exact h
    all_goals try exact ih h
    case paragraph => split at h <;> simp_all [usesOf]
    case footnoteDefinition => split at h <;> simp_all [usesOf]
    case image =>
      simp only [Uses.append_must, Uses.append_may, List.mem_append] at h ⊢
      refine h.imp id ?_
      split <;> exact id
    case link =>
      revert h
      split
      · split
        · simp only [Uses.append_must, Uses.append_may, List.mem_append]
          exact Or.imp ih id
        · exact id
      · split
        · exact ih
        · split
          · exact id
          · simp only [Uses.append_must, Uses.append_may, List.mem_append]
            refine Or.imp id ?_
            split <;> exact id

theorem usesList_sub (cx : Cx) : ∀ (ns : List Node) (r : Ref),
    r ∈ (usesList cx ns).must → r ∈ (usesList cx ns).may
  | [], _, h => h
  | n :: ns, r, h => by
    rw [usesList] at h ⊢
    simp only [Uses.append_must, Uses.append_may, List.mem_append] at h ⊢
    exact h.imp (uses_sub cx n r) (usesList_sub cx ns r)
end

theorem mayIn_doc (cx : Cx) (cs : List Node) : MayIn cx (documentRefs cx cs) (serKids cx cs) := by
  intro k hk r hr
  have hm : k.node ∈ (serKids cx cs).map (·.node) := List.mem_map.mpr ⟨k, hk, rfl⟩
  rw [serKids_nodes] at hm
  exact (usesList_mem hm).2 hr

theorem formatDoc_eq (cx : Cx) (p : Pos) (cs : List Node) :
    formatDoc cx (.mk .document p cs) = serDocument cx (serKids cx cs) {} := by
  simp only [formatDoc, ser, dispatch]

/-- **C18.** In the output of any document no label is defined twice, and everything recorded
as defined is in the output. -/
theorem c18_document_once (cx : Cx) (p : Pos) (cs : List Node) (h : wellPlacedDoc cs = true) :
    let r := formatDoc cx (.mk .document p cs)
    r.emittedReferences.Nodup ∧ r.footnotes.emitted.Nodup ∧
    (∀ l ∈ r.emittedReferences, ∃ x ∈ namedRefs cx cs, x.label = l ∧ referenceText x <:+: r.output) ∧
    ∀ n ∈ r.footnotes.emitted, ∃ f : Footnote, f.name = n ∧ footnoteText cx f <:+: r.output := by
  obtain ⟨hk, hb⟩ := blocks_of (cx := cx) h
  obtain ⟨A, F, inv, hA, _⟩ := serDocument_good hk (mayIn_doc cx cs) hb (serKids_fn cx cs)
    (good_empty cx _)
  intro r
  have e : r = serDocument cx (serKids cx cs) {} := formatDoc_eq cx p cs
  rw [e]
  refine ⟨inv.emN, inv.feN, fun l hl => ?_, fun n hn => ?_⟩
  · obtain ⟨x, hm, hx, ht⟩ := inv.emT l hl
    exact ⟨x, usesList_named cx cs x (hA x hm), hx, ht⟩
  · obtain ⟨f, _, hf, ht⟩ := inv.feT n hn
    exact ⟨f, hf, ht⟩

theorem filter_uses {cx : Cx} {cs : List Node} {n : Node} (hn : n ∈ cs) {r : Ref}
    (hr : r ∈ (uses cx n).must) :
    r ∈ (kidUses cx ((serKids cx cs).filter fun k => k.node.isFootnoteDefinition) ++
      bodyUses cx (serKids cx cs)).must := by
  rw [Uses.append_must, List.mem_append]
  by_cases hf : n.isFootnoteDefinition
  · left
    rw [kidUses]
    refine (usesList_mem (n := n) ?_).1 hr
    have : n ∈ (serKids cx cs).map (·.node) := by rw [serKids_nodes]; exact hn
    obtain ⟨k, hk, rfl⟩ := List.mem_map.mp this
    exact List.mem_map.mpr ⟨k, List.mem_filter.mpr ⟨hk, hf⟩, rfl⟩
  · right
    rw [bodyUses, serKids_nodes]
    exact (usesList_mem (List.mem_filter.mpr ⟨hn, by simpa using hf⟩)).1 hr

theorem document_defines (cx : Cx) (p : Pos) (cs : List Node) (h : wellPlacedDoc cs = true)
    (hd : ∀ c ∈ cs, c.directive = none) (n : Node) (hn : n ∈ cs) (r : Ref)
    (hr : r ∈ (uses cx n).must) :
    ∃ r' ∈ documentRefs cx cs, r'.label = r.label ∧
      referenceText r' <:+: (formatDoc cx (.mk .document p cs)).output := by
  obtain ⟨hk, hb⟩ := blocks_of (cx := cx) h
  have hd' : ∀ k ∈ serKids cx cs, k.node.directive = none := by
    intro k hk
    have hm : k.node ∈ (serKids cx cs).map (·.node) := List.mem_map.mpr ⟨k, hk, rfl⟩
    rw [serKids_nodes] at hm
    exact hd _ hm
  obtain ⟨⟨A, F, inv, hM, hl, _⟩, p1, p2, _⟩ := serDocument_used hk (mayIn_doc cx cs) hb
    (serKids_fn cx cs) hd' (good_empty cx _) rfl
  rw [formatDoc_eq]
  obtain ⟨a, ha, he⟩ := hl r (filter_uses hn hr)
  have hm : a.label ∈ (serDocument cx (serKids cx cs) {}).emittedReferences := by
    rcases inv.cov a ha with h | h | h
    · exact h
    · rw [p1] at h; simp at h
    · rw [p2] at h; simp at h
  obtain ⟨x, hx, hxl, ht⟩ := inv.emT _ hm
  exact ⟨x, hM x hx, hxl.trans he, ht⟩

/-- What stands inside containers is used. -/
theorem within_uses {cx : Cx} {m n : Node} (h : Within m n) {r : Ref} (hr : r ∈ (uses cx m).must) :
    r ∈ (uses cx n).must := by
  induction h with
  | here => exact hr
  | inside v p cs c hv hc _ ih =>
    have hl : r ∈ (usesList cx cs).must := (usesList_mem hc).1 ih
    cases v <;> simp [isContainer] at hv <;> simpa [uses] using hl

theorem inlines_mem {cx : Cx} {cs : List Node} {n : Node} (h : n ∈ cs) :
    ∃ nb, ∀ r ∈ (collectInline cx nb n).2, r ∈ (collectInlines cx cs).2 := by
  induction cs with
  | nil => simp at h
  | cons c cs ih =>
    rw [collectInlines]
    simp only [Inl.append, List.mem_append]
    rcases List.mem_cons.mp h with rfl | h
    · exact ⟨_, fun r hr => .inl hr⟩
    · obtain ⟨nb, h⟩ := ih h
      exact ⟨nb, fun r hr => .inr (h r hr)⟩

theorem inside_mem {cx : Cx} {cs : List Node} {n : Node} (h : Inside n cs) :
    ∃ nb, ∀ r ∈ (collectInline cx nb n).2, r ∈ (collectInlines cx cs).2 := by
  induction h with
  | here cs h => exact inlines_mem h
  | emph p inner cs h _ ih =>
    obtain ⟨nb, ih⟩ := ih
    obtain ⟨nb', h'⟩ := inlines_mem (cx := cx) h
    refine ⟨nb, fun r hr => h' r ?_⟩
    rw [collectInline]
    exact ih r hr
  | strong p inner cs h _ ih =>
    obtain ⟨nb, ih⟩ := ih
    obtain ⟨nb', h'⟩ := inlines_mem (cx := cx) h
    refine ⟨nb, fun r hr => h' r ?_⟩
    rw [collectInline]
    exact ih r hr

theorem registers_mem {cx : Cx} {n : Node} {r : Ref} (h : Registers cx n r) (nb : Bool) :
    r ∈ (collectInline cx nb n).2 := by
  cases h with
  | link url title p cs l hl =>
    rw [registeredLabel, Option.map_eq_some_iff] at hl
    obtain ⟨⟨text, label⟩, h1, rfl⟩ := hl
    rw [collectInline]
    simp only [h1]
    split
    · simp
    · rw [formatReference_label]; simp
  | image url title p cs l hl =>
    rw [registeredLabel, Option.map_eq_some_iff] at hl
    obtain ⟨⟨text, label⟩, h1, rfl⟩ := hl
    rw [collectInline]
    simp only [h1]
    rw [formatReference_label]; simp
  | external url title p cs hl hu hi ht =>
    rw [registeredLabel, Option.map_eq_none_iff] at hl
    rw [collectInline]
    simp only [hl]
    rw [if_neg (by simp [hi]), if_neg ht, if_pos hu]
    simp [formatExternalLink]

theorem paragraph_uses {cx : Cx} {q : Pos} {is : List Node} {l : Node} {r : Ref}
    (ha : abbreviationDef cx q = none) (hl : Inside l is) (hr : Registers cx l r) :
    r ∈ (uses cx (.mk .paragraph q is)).must := by
  obtain ⟨nb, h⟩ := inside_mem (cx := cx) hl
  rw [uses, ha]
  exact h r (registers_mem hr nb)

/-- **C18.** In a document without directives, every link in a paragraph, however deep in
lists and quotes and emphases, that is written as a reference has a definition with its
label in the output. -/
theorem c18_document_all (cx : Cx) (p : Pos) (cs : List Node) (h : wellPlacedDoc cs = true)
    (hd : ∀ c ∈ cs, c.directive = none) (c : Node) (hc : c ∈ cs) (q : Pos) (is : List Node)
    (hq : Within (.mk .paragraph q is) c) (ha : abbreviationDef cx q = none)
    (l : Node) (hl : Inside l is) (r : Ref) (hr : Registers cx l r) :
    ∃ url title,
      referenceText ⟨r.label, url, title⟩ <:+: (formatDoc cx (.mk .document p cs)).output := by
  obtain ⟨x, _, hx, ht⟩ := document_defines cx p cs h hd c hc r
    (within_uses hq (paragraph_uses ha hl hr))
  exact ⟨x.url, x.title, hx ▸ ht⟩

theorem texts_mem {cx : Cx} {cs : List Node} {n : Node} (h : n ∈ cs) :
    ∀ r ∈ (collectText cx n).2, r ∈ (collectTexts cx cs).2 := by
  induction cs with
  | nil => simp at h
  | cons c cs ih =>
    rw [collectTexts]
    simp only [Inl.append, List.mem_append]
    rcases List.mem_cons.mp h with rfl | h
    · exact fun r hr => .inl hr
    · exact fun r hr => .inr (ih h r hr)

theorem inside_texts {cx : Cx} {cs : List Node} {n : Node} (h : Inside n cs) :
    ∀ r ∈ (collectText cx n).2, r ∈ (collectTexts cx cs).2 := by
  induction h with
  | here cs h => exact texts_mem h
  | emph p inner cs h _ ih =>
    intro r hr
    refine texts_mem (cx := cx) h r ?_
    rw [collectText]
    exact ih r hr
  | strong p inner cs h _ ih =>
    intro r hr
    refine texts_mem (cx := cx) h r ?_
    rw [collectText]
    exact ih r hr

/-- **C18.** The same for the links in headings: those in reference style and those to an
external URL. -/
theorem c18_heading_all (cx : Cx) (p : Pos) (cs : List Node) (h : wellPlacedDoc cs = true)
    (hd : ∀ c ∈ cs, c.directive = none) (c : Node) (hc : c ∈ cs) (level : Nat) (q : Pos)
    (is : List Node) (hq : Within (.mk (.heading level) q is) c)
    (url title : List Char) (lp : Pos) (ls : List Node) (hl : Inside (.mk (.link url title) lp ls) is)
    (label : List Char)
    (hr : registeredLabel cx lp = some label ∨
      registeredLabel cx lp = none ∧ isExternalUrl url = true ∧ label = softToSpace (rawTexts ls)) :
    ∃ url title,
      referenceText ⟨label, url, title⟩ <:+: (formatDoc cx (.mk .document p cs)).output := by
  have hm : (⟨label, url, title⟩ : Ref) ∈ (uses cx (.mk (.heading level) q is)).must := by
    rw [uses]
    refine inside_texts (cx := cx) hl _ ?_
    rw [collectText]
    rcases hr with hl | ⟨hl, hu, rfl⟩
    · rw [registeredLabel, Option.map_eq_some_iff] at hl
      obtain ⟨⟨text, l⟩, h1, rfl⟩ := hl
      simp only [h1, formatReference_label]
      simp
    · rw [registeredLabel, Option.map_eq_none_iff] at hl
      simp only [hl, if_pos hu]
      simp [formatExternalLink]
  obtain ⟨x, _, hx, ht⟩ := document_defines cx p cs h hd c hc _ (within_uses hq hm)
  simp only at hx
  exact ⟨x.url, x.title, hx ▸ ht⟩

/-- **C18.** The same for the links in the cells of tables. -/
theorem c18_table_all (cx : Cx) (p : Pos) (cs : List Node) (h : wellPlacedDoc cs = true)
    (hd : ∀ c ∈ cs, c.directive = none) (c : Node) (hc : c ∈ cs) (aligns : List Align) (q : Pos)
    (rows : List Node) (hq : Within (.mk (.table aligns) q rows) c)
    (row cell : Node) (hrow : row ∈ rows) (hcell : cell ∈ row.children)
    (l : Node) (hl : Inside l cell.children) (r : Ref) (hr : Registers cx l r) :
    ∃ url title,
      referenceText ⟨r.label, url, title⟩ <:+: (formatDoc cx (.mk .document p cs)).output := by
  have hm : r ∈ (uses cx (.mk (.table aligns) q rows)).must := by
    rw [uses]
    obtain ⟨nb, h⟩ := inside_mem (cx := cx) hl
    exact List.mem_flatMap.mpr ⟨row, hrow, List.mem_flatMap.mpr ⟨cell, hcell, h r (registers_mem hr nb)⟩⟩
  obtain ⟨x, _, hx, ht⟩ := document_defines cx p cs h hd c hc _ (within_uses hq hm)
  exact ⟨x.url, x.title, hx ▸ ht⟩

/-- **C19 (partial).** Full statement: without the hypothesis `hu` that equal labels come with
equal targets (`c19_target_false`). What holds for all documents without directives: the
definition of each link which is written as a reference carries that link's target. -/
theorem c19_document_partial (cx : Cx) (p : Pos) (cs : List Node) (h : wellPlacedDoc cs = true)
    (hd : ∀ c ∈ cs, c.directive = none)
    (hu : ∀ r ∈ namedRefs cx cs, ∀ r' ∈ namedRefs cx cs, r.label = r'.label → r = r')
    (c : Node) (hc : c ∈ cs) (q : Pos) (is : List Node)
    (hq : Within (.mk .paragraph q is) c) (ha : abbreviationDef cx q = none)
    (l : Node) (hl : Inside l is) (r : Ref) (hr : Registers cx l r) :
    referenceText r <:+: (formatDoc cx (.mk .document p cs)).output := by
  have hm := within_uses hq (paragraph_uses ha hl hr)
  obtain ⟨x, hx, he, ht⟩ := document_defines cx p cs h hd c hc r hm
  rw [← hu x (usesList_named cx cs x hx) r (usesList_named cx cs r (usesList_sub cx cs r ((usesList_mem hc).1 hm))) he]
  exact ht

/-- **C21.** In a document without directives every footnote definition of the document is
written, once. -/
theorem c21_document_all (cx : Cx) (p : Pos) (cs : List Node) (h : wellPlacedDoc cs = true)
    (hd : ∀ c ∈ cs, c.directive = none) (name : List Char) (q : Pos) (fs : List Node)
    (hf : .mk (.footnoteDefinition name) q fs ∈ cs) :
    let r := formatDoc cx (.mk .document p cs)
    name ∈ r.footnotes.emitted ∧ r.footnotes.emitted.Nodup ∧
      ∃ f : Footnote, f.name = name ∧ footnoteText cx f <:+: r.output := by
  obtain ⟨hk, hb⟩ := blocks_of (cx := cx) h
  have hd' : ∀ k ∈ serKids cx cs, k.node.directive = none := by
    intro k hk
    have hm : k.node ∈ (serKids cx cs).map (·.node) := List.mem_map.mpr ⟨k, hk, rfl⟩
    rw [serKids_nodes] at hm
    exact hd _ hm
  obtain ⟨⟨A, F, inv, _, _, hn⟩, _, _, p3⟩ := serDocument_used hk (mayIn_doc cx cs) hb
    (serKids_fn cx cs) hd' (good_empty cx _) rfl
  intro r
  have e : r = serDocument cx (serKids cx cs) {} := formatDoc_eq cx p cs
  rw [e]
  have hmem : name ∈ fnNames ((serKids cx cs).map (·.node)) := by
    rw [serKids_nodes, fnNames, List.mem_filterMap]
    exact ⟨_, hf, rfl⟩
  obtain ⟨f, hf, he⟩ := hn name hmem
  have hm : name ∈ (serDocument cx (serKids cx cs) {}).footnotes.emitted := by
    rcases inv.covF f hf with h | h
    · exact he ▸ h
    · rw [p3] at h; simp at h
  obtain ⟨g, _, hg, ht⟩ := inv.feT _ hm
  exact ⟨hm, inv.feN, g, hg, ht⟩

/-- A document with a footnote that has a link, a link in a quote and a section. -/
def exRefDoc : List Node :=
  let p : Pos := ⟨1, 1, 1, 1⟩
  [.mk .blockQuote p [exPar [.mk .emph p [exLink "a" "http://x"],
     .mk (.footnoteReference "n".toList) p []]],
   .mk (.heading 2) ⟨5, 1, 5, 1⟩ [exText "T"],
   exPar [exLink "a" "http://x", exText " ", exLink "b" "http://y"],
   .mk (.footnoteDefinition "n".toList) p [exPar [exLink "c" "http://z"]]]

example : wellPlacedDoc exRefDoc = true ∧ ∀ c ∈ exRefDoc, c.directive = none := by decide +kernel
example : (formatDoc codeCx (exDoc exRefDoc)).output =
    ("> *[a]*[^n]\n\n[^n]: [c]\n\n[a]: http://x\n\n[c]: http://z\n\n\nT\n-\n\n[a] [b]\n\n" ++
     "[b]: http://y\n").toList := by decide +kernel
example : (formatDoc codeCx (exDoc exRefDoc)).emittedReferences =
    ["a".toList, "c".toList, "b".toList] := by decide +kernel

/-! ### C63: definitions used in disabled regions -/

/-- The source of a document with a disabled paragraph. -/
def exSkipCx : Cx :=
  { codeCx with
    sourceLines := ["<!-- hongdown-disable-next-line -->".toList, "[foo]".toList, [],
      "[foo]: http://x".toList]
    sourceEndsWithNewline := true }

/-- The tree of that document. -/
def exSkipDoc : Node :=
  .mk .document ⟨1, 1, 4, 15⟩
    [.mk (.htmlBlock "<!-- hongdown-disable-next-line -->\n".toList) ⟨1, 1, 1, 35⟩ [],
     .mk .paragraph ⟨2, 1, 2, 5⟩
      [.mk (.link "http://x".toList []) ⟨2, 1, 2, 5⟩ [.mk (.text "foo".toList) ⟨2, 2, 2, 4⟩ []]]]

/-- **C63.** The general claim is false: the definitions of references which are used only
where formatting is disabled are lost. The paragraph `[foo]` is kept, its definition is
not. -/
theorem c63_skipped_false :
    ¬ ∀ (cx : Cx) (p : Pos) (cs : List Node), wellPlacedDoc cs = true →
      ∀ c ∈ cs, ∀ q is, c = .mk .paragraph q is → ∀ l ∈ is, ∀ r, Registers cx l r →
        ∃ url title,
          referenceText ⟨r.label, url, title⟩ <:+: (formatDoc cx (.mk .document p cs)).output := by
  intro h
  obtain ⟨url, title, h⟩ := h exSkipCx ⟨1, 1, 4, 15⟩ exSkipDoc.children (by decide +kernel)
    _ (List.mem_cons_of_mem _ (List.mem_singleton.mpr rfl)) _ _ rfl _ (List.mem_singleton.mpr rfl)
    ⟨"foo".toList, "http://x".toList, []⟩ (.link _ _ _ _ _ (by decide +kernel))
  have e : (formatDoc exSkipCx (.mk .document ⟨1, 1, 4, 15⟩ exSkipDoc.children)).output =
      "<!-- hongdown-disable-next-line -->\n\n[foo]\n".toList := by decide +kernel
  have hp : "[foo]: ".toList <:+: referenceText ⟨"foo".toList, url, title⟩ := by
    refine ⟨[], url ++ titlePart title ++ ['\n'], ?_⟩
    show _ = ['['] ++ softToSpace "foo".toList ++ [']', ':', ' '] ++ url ++ titlePart title ++ ['\n']
    simp [softToSpace]
  rw [e] at h
  exact absurd (hp.trans h) (by decide +kernel)

/-- **C63 (partial).** Full statement: for all documents (`c63_skipped_false`). What holds:
`c18_document_all`, for documents without directives; stated here for the blocks directly
in the document. -/
theorem c63_skipped_partial (cx : Cx) (p : Pos) (cs : List Node) (h : wellPlacedDoc cs = true)
    (hd : ∀ c ∈ cs, c.directive = none) (q : Pos) (is : List Node)
    (hc : .mk .paragraph q is ∈ cs) (ha : abbreviationDef cx q = none) (l : Node) (hl : l ∈ is)
    (r : Ref) (hr : Registers cx l r) :
    ∃ url title,
      referenceText ⟨r.label, url, title⟩ <:+: (formatDoc cx (.mk .document p cs)).output :=
  c18_document_all cx p cs h hd _ hc q is .here ha l (.here _ hl) r hr

end Hongdown.Props
