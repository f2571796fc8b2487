import Verif.Lemmas.Prefixed
import Verif.Lemmas.Lists
import Verif.Lemmas.Table

/-!
# Block quotes
-/

namespace Hongdown
open Model Spec

/-- Options without line ends. -/
structure NoNl (o : Options) : Prop where
  bullet : o.unorderedMarker ≠ '\n'
  odd : o.oddLevelMarker ≠ '\n'
  even : o.evenLevelMarker ≠ '\n'
  fence : o.fenceChar ≠ '\n'
  style : '\n' ∉ o.thematicBreakStyle
  language : '\n' ∉ o.defaultLanguage

structure InQ (m : List Char) (st : St) : Prop where
  quote : st.inBlockQuote = true
  details : st.inDescriptionDetails = false
  outer : st.blockquoteOuterIndent = []
  pfx : m <+: trimEnd st.blockquotePrefix
  nl : '\n' ∉ st.blockquotePrefix

/-- What a block needs of the state. -/
structure Req (n : Node) (st : St) : Prop where
  par : n.value = .paragraph → st.listType = none
  quote : n.isQuote = true → st.listItemIndent = []
  item : isItemLike n = true → st.listTight = true ∧ st.listType.isSome = true

def Adds (m : List Char) (st st' : St) : Prop := ∃ t, st'.output = st.output ++ t ∧ Prefixed m t

def KidQ (cx : Cx) (m : List Char) (k : Kid) : Prop :=
  KidOk cx k ∧ ∀ st, InQ m st → Req k.node st → Adds m st (k.act st)

theorem InQ.act {cx : Cx} {m : List Char} {k : Kid} (hk : KidOk cx k) {st : St} (h : InQ m st) :
    InQ m (k.act st) ∧ (k.act st).listType = st.listType ∧ (k.act st).listTight = st.listTight ∧
      (k.act st).listItemIndent = st.listItemIndent ∧ (k.act st).listDepth = st.listDepth := by
  have := ctx_eq (hk st).ctx
  obtain ⟨_, h2, h3, h4, h5, h6, h7, _, h9, h10, h11⟩ := this
  have e : (kidStart k st).listType = st.listType ∧ (kidStart k st).listTight = st.listTight ∧
      (kidStart k st).inBlockQuote = st.inBlockQuote ∧
      (kidStart k st).blockquotePrefix = st.blockquotePrefix ∧
      (kidStart k st).inDescriptionDetails = st.inDescriptionDetails ∧
      (kidStart k st).listItemIndent = st.listItemIndent ∧
      (kidStart k st).blockquoteOuterIndent = st.blockquoteOuterIndent ∧
      (kidStart k st).listDepth = st.listDepth := by
    rw [kidStart]; split <;> simp
  obtain ⟨e1, e2, e3, e4, e5, e6, e7, e8⟩ := e
  refine ⟨⟨?_, ?_, ?_, ?_, ?_⟩, h2.trans e1, h3.trans e2, h9.trans e6, h6.trans e8⟩
  · rw [h4, e3]; exact h.quote
  · rw [h7, e5]; exact h.details
  · rw [h10, e7]; exact h.outer
  · rw [h5, e4]; exact h.pfx
  · rw [h5, e4]; exact h.nl

theorem adds_push {m : List Char} (st : St) {t : List Char} (h : Prefixed m t) : Adds m st (st.push t) :=
  ⟨t, rfl, h⟩

theorem Adds.trans {m : List Char} {a b c : St} (h : Adds m a b) (h' : Adds m b c) : Adds m a c := by
  obtain ⟨t, e, ht⟩ := h
  obtain ⟨u, e', hu⟩ := h'
  exact ⟨t ++ u, by rw [e', e, List.append_assoc], ht.append hu⟩

theorem trimEnd_quote (p : List Char) : trimEnd (p ++ ['>', ' ']) = p ++ ['>'] := by
  rw [trimEnd_append_right (by decide)]
  rfl

theorem quoteChildren_adds {cx : Cx} {m sep : List Char} (hs : Prefixed m sep) : ∀ (kids : List Kid) (st : St),
    (∀ k ∈ kids, KidQ cx m k) → Blocks kids → InQ m st → st.listType = none → st.listItemIndent = [] →
    Adds m st (serQuoteChildren sep kids st)
  | [], st, _, _, _, _, _ => ⟨[], by simp [serQuoteChildren], prefixed_nil m⟩
  | [k], st, h, hb, hq, ht, hi => by
    rw [serQuoteChildren]
    exact (h k (by simp)).2 st hq ⟨fun _ => ht, fun _ => hi, fun h' => by simp [hb k (by simp)] at h'⟩
  | k :: k' :: ks, st, h, hb, hq, ht, hi => by
    rw [serQuoteChildren]
    · have h1 := (h k (by simp)).2 st hq ⟨fun _ => ht, fun _ => hi, fun h' => by simp [hb k (by simp)] at h'⟩
      obtain ⟨hq', e1, _, e3, _⟩ := InQ.act (h k (by simp)).1 hq
      have h2 := adds_push (k.act st) hs
      have h3 := quoteChildren_adds hs (k' :: ks) ((k.act st).push sep) (fun x hx => h x (by simp [hx]))
        (fun x hx => hb x (by simp [hx])) ⟨hq'.quote, hq'.details, hq'.outer, hq'.pfx, hq'.nl⟩ (e1.trans ht)
        (e3.trans hi)
      exact (h1.trans h2).trans h3
    · simp

/-- A block quote adds lines with its marker. -/
theorem quote_adds {cx : Cx} {m : List Char} {kids : List Kid} (h : ∀ k ∈ kids, KidQ cx m k) (hb : Blocks kids)
    (st : St) (hd : st.inDescriptionDetails = false) (hi : st.listItemIndent = [])
    (hm : m <+: st.blockquotePrefix ++ ['>']) (hn : '\n' ∉ st.blockquotePrefix) :
    Adds m st (serBlockQuote kids st) := by
  rw [serBlockQuote]
  have hs : Prefixed m (st.listItemIndent ++ st.blockquotePrefix ++ ['>', '\n']) := by
    rw [hi, List.nil_append, show st.blockquotePrefix ++ ['>', '\n'] = (st.blockquotePrefix ++ ['>']) ++ ['\n'] by simp]
    exact prefixed_line (by simp [hn]) hm
  exact quoteChildren_adds (st := enterQuote st) hs kids h hb
    ⟨rfl, hd, hi, by rw [enterQuote, trimEnd_quote]; exact hm, by simp [enterQuote, hn]⟩ rfl rfl

theorem alert_adds {cx : Cx} {m : List Char} {kids : List Kid} (h : ∀ k ∈ kids, KidQ cx m k) (hb : Blocks kids)
    (type : AlertType) (p : Pos) (st : St) (hd : st.inDescriptionDetails = false) (hi : st.listItemIndent = [])
    (hm : m <+: st.blockquotePrefix ++ ['>']) (hn : '\n' ∉ st.blockquotePrefix) :
    Adds m st (serAlert type p kids st) := by
  have h1 : Prefixed m (st.listItemIndent ++ st.blockquotePrefix ++ ['>', ' ', '[', '!'] ++ alertName type ++ [']', '\n']) := by
    have e : st.listItemIndent ++ st.blockquotePrefix ++ ['>', ' ', '[', '!'] ++ alertName type ++ [']', '\n'] =
        (st.blockquotePrefix ++ ['>'] ++ ([' ', '[', '!'] ++ alertName type ++ [']'])) ++ ['\n'] := by simp [hi]
    rw [e]
    refine prefixed_line ?_ (hm.trans (List.prefix_append _ _))
    have : '\n' ∉ alertName type := by cases type <;> decide +kernel
    simp only [List.mem_append, not_or]
    exact ⟨⟨hn, by decide⟩, ⟨by decide, this⟩, by decide⟩
  have h2 : Prefixed m (st.listItemIndent ++ st.blockquotePrefix ++ ['>', '\n']) := by
    rw [hi, List.nil_append, show st.blockquotePrefix ++ ['>', '\n'] = (st.blockquotePrefix ++ ['>']) ++ ['\n'] by simp]
    exact prefixed_line (by simp [hn]) hm
  rw [serAlert]
  refine (adds_push st h1).trans ?_
  split
  · refine (adds_push _ h2).trans ?_
    exact quote_adds h hb _ hd hi hm hn
  · exact quote_adds h hb _ hd hi hm hn

theorem containsSub_of_infix {p s : List Char} (hp : p ≠ []) (h : containsSub p s = true) : p <:+: s := by
  induction s with
  | nil => simp [containsSub, hp] at h
  | cons c cs ih =>
    rw [containsSub, Bool.or_eq_true] at h
    rcases h with h | h
    · exact (List.isPrefixOf_iff_prefix.1 h).isInfix
    · exact (ih h).trans (List.suffix_cons c cs).isInfix

theorem abbreviation_none {cx : Cx} {p : Pos} (h : NoAbbreviation cx p) : abbreviationDef cx p = none := by
  rw [abbreviationDef]
  split
  · rfl
  · next src e =>
    rw [if_neg]
    intro hh
    rw [Bool.and_eq_true] at hh
    exact h src e ⟨List.isPrefixOf_iff_prefix.1 hh.1, containsSub_of_infix (by simp) hh.2⟩

theorem addReferences_keep (st : St) (rs : List Ref) :
    (addReferences st rs).output = st.output ∧ ctx (addReferences st rs) = ctx st := by
  refine ⟨?_, (okAt_addReferences rs st).ctx⟩
  induction rs generalizing st with
  | nil => rfl
  | cons r rs ih =>
    show (addReferences (addReference st r) rs).output = _
    rw [ih]
    rw [addReference]; split <;> rfl

theorem paragraph_adds {cx : Cx} {m : List Char} (p : Pos) (cs : List Node) (st : St) (ha : NoAbbreviation cx p)
    (hq : InQ m st) (ht : st.listType = none) : Adds m st (serParagraph cx p cs st) := by
  rw [serParagraph, abbreviation_none ha]
  simp only
  obtain ⟨e0, e⟩ := addReferences_keep st (collectInlines cx cs).2
  obtain ⟨_, h2, _, h4, h5, _, _, _, _, h10, _⟩ := ctx_eq e
  rw [h2, ht]
  simp only [Option.isSome_none, Bool.false_eq_true, if_false]
  refine ⟨_, by rw [St.push]; simp only [e0]; rfl, ?_⟩
  apply FL.prefixed
  rw [quotePrefix, h4, h5, h10, hq.quote, hq.outer]
  exact wrapText_fl cx.width _ hq.nl hq.pfx

/-- A paragraph in an item: no line end at the end. -/
theorem item_paragraph {cx : Cx} {m : List Char} (p : Pos) (cs : List Node) (st : St) (ha : NoAbbreviation cx p)
    (hq : InQ m st) (ht : st.listType.isSome = true) :
    ∃ t, (serParagraph cx p cs st).output = st.output ++ t ∧ FL [] m t := by
  rw [serParagraph, abbreviation_none ha]
  simp only
  obtain ⟨e0, e⟩ := addReferences_keep st (collectInlines cx cs).2
  obtain ⟨_, h2, _, h4, h5, _, h7, _, _, h10, _⟩ := ctx_eq e
  rw [h2, ht]
  simp only [if_true]
  refine ⟨_, by rw [St.push]; simp only [e0]; rfl, ?_⟩
  rw [paragraphContinuation, h7, hq.details, h4, h5, h10, hq.quote, hq.outer]
  simp only [Bool.false_eq_true, false_and, if_false, if_true, List.nil_append]
  apply wrapTextFirstLine_fl cx.width _ (by simp)
  · simp [hq.nl, spaces]
  · simp
  · exact hq.pfx.trans (trimEnd_mono ..)

theorem itemLead_quote {cx : Cx} (ho : NoNl cx.opts) (task : Option (Option Char)) (st : St)
    (hq : st.inBlockQuote = true) (hd : st.inDescriptionDetails = false) (ht : st.listTight = true) :
    ['>'] <+: itemLead cx task st ∧ '\n' ∉ itemLead cx task st := by
  have h1 : '\n' ∉ itemMarker cx st := by
    rw [itemMarker]
    split
    · have := ho.bullet
      simp [spaces, hd, Ne.symm ho.bullet]
    · have hdig : '\n' ∉ (Nat.repr st.listItemIndex).toList := by
        rw [Nat.toList_repr]
        intro h
        have := Nat.isDigit_of_mem_toDigits (by decide) (by decide) h
        exact absurd this (by decide)
      simp only [List.mem_append, List.mem_singleton, not_or, spaces, List.mem_replicate]
      refine ⟨⟨hdig, ?_⟩, by simp⟩
      split
      · exact Ne.symm ho.odd
      · exact Ne.symm ho.even
    · simp
  have h2 : '\n' ∉ taskBox task := by
    rcases task with _ | _ | _ <;> simp [taskBox]
  rw [itemLead, hq, hd, ht]
  simp only [Bool.not_true, Bool.false_and, Bool.false_eq_true, if_false, if_true, List.nil_append]
  refine ⟨by simp, ?_⟩
  simp only [List.mem_append, not_or]
  refine ⟨⟨⟨⟨by decide, by simp⟩, ?_⟩, h1⟩, h2⟩
  split <;> simp [spaces]

theorem outputInfo_nl {cx : Cx} (ho : NoNl cx.opts) {info : List Char} (h : '\n' ∉ info) :
    '\n' ∉ outputInfo cx info := by
  rw [outputInfo]
  split
  · exact ho.language
  · rw [parseCodeInfo]
    split
    · simp
    · exact fun hh => h (trim_subset hh)

theorem code_adds {cx : Cx} (ho : NoNl cx.opts) (info literal : List Char) (st : St) (hq : st.inBlockQuote = true)
    (hi : '\n' ∉ info) : Adds ['>'] st (serCodeBlock cx info literal st) := by
  have hw := (okAt_codeWarning st (codeContent cx info literal).2)
  have e0 : (addCodeWarning st (codeContent cx info literal).2).output = st.output := by
    rw [addCodeWarning.eq_def]; split <;> rfl
  rw [serCodeBlock, hq]
  refine ⟨_, by rw [St.push]; simp only [e0]; rfl, ?_⟩
  rw [codeBlockText]
  generalize hfe : List.replicate (fenceLength cx.opts.minFenceLength cx.opts.fenceChar
    (codeContent cx info literal).1) cx.opts.fenceChar = fence
  have hf : '\n' ∉ fence := by rw [← hfe]; simp [Ne.symm ho.fence]
  have h1 : Prefixed ['>'] (['>', ' '] ++ openFence cx fence info) := by
    rw [openFence, ← List.append_assoc]
    refine prefixed_line ?_ (by simp)
    have := outputInfo_nl ho hi
    split
    · simp [hf]
    · split <;> simp [hf, this]
  have h2 : Prefixed ['>'] ((lines (codeContent cx info literal).1).flatMap (codeLine true)) := by
    apply prefixed_flatMap
    intro l hl
    rw [codeLine]
    have := lines_no_nl _ l hl
    refine prefixed_line ?_ ?_
    · simp only [if_true]; split <;> simp [this]
    · simp only [if_true]; split <;> simp
  have h3 : Prefixed ['>'] (['>', ' '] ++ fence ++ ['\n']) := prefixed_line (by simp [hf]) (by simp)
  simp only [if_true]
  have := (h1.append h2).append h3
  simpa using this

theorem break_adds {cx : Cx} (ho : NoNl cx.opts) (st : St) (hq : InQ ['>'] st) :
    Adds ['>'] st (serThematicBreak cx st) := by
  rw [serThematicBreak, hq.quote, hq.outer]
  refine adds_push st (prefixed_line ?_ ?_)
  · simp [spaces, ho.style]
  · simp

theorem mem_escapeTableCell {c : Char} (h1 : c ≠ '\\') (h2 : c ≠ '|') : ∀ s : List Char,
    c ∈ escapeTableCell s → c ∈ s := by
  intro s
  fun_induction escapeTableCell s <;> simp_all
  all_goals (intro h; rcases h with h | h <;> simp_all)

theorem rowText_prefixed (w : List Char → Nat) (widths : List Nat) (aligns : List Align)
    (cells : List (List Char)) (h : ∀ c ∈ cells, '\n' ∉ c) :
    Prefixed ['>'] (['>', ' '] ++ rowText w widths aligns cells) := by
  rw [rowText, ← List.append_assoc]
  refine prefixed_line ?_ (by simp)
  simp only [List.mem_append, List.mem_flatten, not_or, List.mem_mapIdx, not_exists, not_and]
  refine ⟨by decide, by decide, ?_⟩
  rintro x ⟨i, hi, rfl⟩ hx
  have hc := h cells[i] (List.getElem_mem hi)
  simp only [List.mem_append] at hx
  rcases hx with (hx | hx) | hx
  · exact absurd hx (by decide)
  · revert hx
    cases aligns.getD i .none <;> simp [formatCell, hc, spaces]
  · exact absurd hx (by decide)

theorem delimText_prefixed (widths : List Nat) (aligns : List Align) :
    Prefixed ['>'] (['>', ' '] ++ delimText widths aligns) := by
  rw [delimText, ← List.append_assoc]
  refine prefixed_line ?_ (by simp)
  simp only [List.mem_append, List.mem_flatten, not_or, List.mem_mapIdx, not_exists, not_and]
  refine ⟨by decide, by decide, ?_⟩
  rintro x ⟨i, hi, rfl⟩ hx
  simp only [List.mem_append] at hx
  rcases hx with (hx | hx) | hx
  · exact absurd hx (by decide)
  · revert hx
    rw [delimCell.eq_def]
    split <;> simp
  · exact absurd hx (by decide)

theorem table_adds {cx : Cx} (p : Pos) (aligns : List Align) (rows : List Node) (st : St)
    (hq : st.inBlockQuote = true)
    (hc : ∀ row ∈ rows, ∀ cell ∈ row.children, '\n' ∉ (collectInlines cx cell.children).1) :
    Adds ['>'] st (serTable cx p aligns rows st) := by
  rw [serTable]
  split
  · exact ⟨[], by simp, prefixed_nil _⟩
  · generalize hst : ({ st with warnings := st.warnings ++ tableWarnings cx.sourceLines p aligns.length } : St) = s1
    have e1 : s1.output = st.output := by rw [← hst]
    have e2 : s1.inBlockQuote = true := by rw [← hst]; exact hq
    obtain ⟨e0, e⟩ := addReferences_keep s1
      ((rows.map fun r => r.children.map (cellInline cx)).flatten.flatMap (·.2))
    simp only [St.push]
    refine ⟨_, by simp only [e0, e1]; rfl, ?_⟩
    rw [(ctx_eq e).2.2.2.1, e2]
    have hcells : ∀ r ∈ (rows.map fun r => r.children.map (cellInline cx)).map (·.map (·.1)), ∀ c ∈ r, '\n' ∉ c := by
      intro r hr c hcm
      simp only [List.map_map, List.mem_map, Function.comp] at hr
      obtain ⟨row, hrow, rfl⟩ := hr
      simp only [List.mem_map] at hcm
      obtain ⟨cell, hcell, rfl⟩ := hcm
      exact fun hh => hc row hrow cell hcell (mem_escapeTableCell (by decide) (by decide) _ hh)
    rw [tableText.eq_def]
    generalize (rows.map fun r => r.children.map (cellInline cx)).map (·.map (·.1)) = all at hcells ⊢
    simp only [if_true]
    cases all with
    | nil => exact prefixed_nil _
    | cons header data =>
      simp only
      have h1 := rowText_prefixed cx.width (colWidths cx.width aligns.length (header :: data)) aligns header
        (hcells header (by simp))
      have h2 := delimText_prefixed (colWidths cx.width aligns.length (header :: data)) aligns
      have h3 : Prefixed ['>'] (data.flatMap fun r =>
          ['>', ' '] ++ rowText cx.width (colWidths cx.width aligns.length (header :: data)) aligns r) :=
        prefixed_flatMap fun r hr => rowText_prefixed _ _ _ _ (hcells r (by simp [hr]))
      have := (h1.append h2).append h3
      simpa using this

theorem items_adds {cx : Cx} {m : List Char} : ∀ (kids : List Kid) (st : St), (∀ k ∈ kids, KidQ cx m k) →
    (∀ k ∈ kids, k.node.value ≠ .paragraph ∧ k.node.isQuote = false) → InQ m st → st.listTight = true →
    st.listType.isSome = true → Adds m st (runKids kids st)
  | [], st, _, _, _, _, _ => ⟨[], by simp [runKids], prefixed_nil m⟩
  | k :: ks, st, h, hb, hq, h1, h2 => by
    have ha := (h k (by simp)).2 st hq
      ⟨fun h => absurd h (hb k (by simp)).1, fun h => by simp [(hb k (by simp)).2] at h, fun _ => ⟨h1, h2⟩⟩
    obtain ⟨hq', e1, e2, _, _⟩ := InQ.act (h k (by simp)).1 hq
    exact ha.trans (items_adds ks (k.act st) (fun x hx => h x (by simp [hx])) (fun x hx => hb x (by simp [hx])) hq'
      (e2.trans h1) (by rw [e1]; exact h2))

theorem list_adds {cx : Cx} {m : List Char} {kids : List Kid} (h : ∀ k ∈ kids, KidQ cx m k)
    (hb : ∀ k ∈ kids, k.node.value ≠ .paragraph ∧ k.node.isQuote = false)
    (type : ListType) (st : St) (hq : InQ m st) : Adds m st (serList type true kids st) := by
  obtain ⟨t, e, ht⟩ := items_adds kids
    { st with
      listType := some type
      listTight := true
      listItemIndex := 0
      listDepth := st.listDepth + 1
      orderedListMaxItems := if type = .ordered then (kids.filter fun k => k.node.isItem).length
        else st.orderedListMaxItems } h hb ⟨hq.quote, hq.details, hq.outer, hq.pfx, hq.nl⟩ rfl rfl
  exact ⟨t, by rw [serList]; exact e, ht⟩

theorem item_adds {cx : Cx} (ho : NoNl cx.opts) (cs : List Node) (hs : itemShape cs = true)
    (hk : ∀ k ∈ serKids cx cs, KidQ cx ['>'] k) (hc : QuotableList cx true cs) (task : Option (Option Char)) (st : St)
    (hq : InQ ['>'] st) (ht : st.listTight = true) (hl : st.listType.isSome = true) :
    Adds ['>'] st (serItem cx task (serKids cx cs) st) := by
  rw [serItem]
  generalize hst : ({ st with listItemIndex := st.listItemIndex + 1 } : St) = s0
  have e0 : s0.output = st.output := by rw [← hst]
  have hq0 : InQ ['>'] s0 := by rw [← hst]; exact ⟨hq.quote, hq.details, hq.outer, hq.pfx, hq.nl⟩
  have hl0 : s0.listType.isSome = true := by rw [← hst]; exact hl
  obtain ⟨hp, hn⟩ := itemLead_quote ho task s0 hq0.quote hq0.details (by rw [← hst]; exact ht)
  generalize itemLead cx task s0 = lead at hp hn
  generalize itemIndent cx (s0.push lead) = indent
  generalize hs2 : ({ s0.push lead with listItemIndent := indent } : St) = s2
  have e2 : s2.output = st.output ++ lead := by rw [← hs2, ← e0]; rfl
  have hq2 : InQ ['>'] s2 := by rw [← hs2]; exact ⟨hq0.quote, hq0.details, hq0.outer, hq0.pfx, hq0.nl⟩
  have hl2 : s2.listType.isSome = true := by rw [← hs2]; exact hl0
  have hline : Prefixed ['>'] (lead ++ ['\n']) := prefixed_line hn hp
  have list_kid : ∀ (k : Kid), KidQ cx ['>'] k → k.node.isList = true → ∀ s, InQ ['>'] s → Adds ['>'] s (k.act s) := by
    intro k hk hl s hs
    refine hk.2 s hs ⟨?_, ?_, ?_⟩ <;> intro h <;> simp [Node.isList, Node.isQuote, isItemLike] at h hl <;> split at hl <;> simp_all
  unfold itemShape at hs
  split at hs
  · refine ⟨lead ++ ['\n'], ?_, hline⟩
    simp [serKids, serItemChildren, St.push, e2]
  · rename_i p ds
    obtain ⟨t, e, hfl⟩ := item_paragraph p ((serKids cx ds).map (·.node)) s2 (by simpa [QuotableList, Quotable] using hc) hq2 hl2
    refine ⟨lead ++ t ++ ['\n'], ?_, (hfl.left hn hp).prefixed⟩
    simp [serKids, serItemChildren, serItemChild, Node.value, ser, dispatch, endsLine, Node.isList, Node.isCodeBlock,
      Node.isQuote, St.push, e, e2]
  · rename_i type tight p ds
    obtain ⟨t, e, ht⟩ := list_kid _ (hk ⟨.mk (.list type tight) p ds, ser cx (.mk (.list type tight) p ds) (nextIsBracket [])⟩ (by simp [serKids])) rfl
      (s2.push ['\n']) ⟨hq2.quote, hq2.details, hq2.outer, hq2.pfx, hq2.nl⟩
    refine ⟨lead ++ ['\n'] ++ t, ?_, hline.append ht⟩
    rw [show (s2.push ['\n']).output = st.output ++ lead ++ ['\n'] by simp [St.push, e2]] at e
    simp only at e
    simp [serKids, serItemChildren, serItemChild, Node.value, endsLine, Node.isList, e]
  · rename_i p ds type tight q es
    obtain ⟨t, e, hfl⟩ := item_paragraph p ((serKids cx ds).map (·.node)) s2 (by
      simp only [QuotableList, Quotable] at hc; exact hc.1) hq2 hl2
    have hkp := hk ⟨.mk .paragraph p ds, ser cx (.mk .paragraph p ds) (nextIsBracket [.mk (.list type tight) q es])⟩ (by simp [serKids])
    have hser : ser cx (.mk .paragraph p ds) (nextIsBracket [.mk (.list type tight) q es]) s2 =
        serParagraph cx p ((serKids cx ds).map (·.node)) s2 := rfl
    have hq3 := (InQ.act hkp.1 hq2).1
    simp only [hser] at hq3
    generalize hs3 : serParagraph cx p ((serKids cx ds).map (·.node)) s2 = s3 at e hq3
    obtain ⟨t', e', ht'⟩ := list_kid _ (hk ⟨.mk (.list type tight) q es, ser cx (.mk (.list type tight) q es) (nextIsBracket [])⟩ (by simp [serKids])) rfl
      (s3.push ['\n']) ⟨hq3.quote, hq3.details, hq3.outer, hq3.pfx, hq3.nl⟩
    refine ⟨lead ++ t ++ ['\n'] ++ t', ?_, (hfl.left hn hp).prefixed.append ht'⟩
    rw [show (s3.push ['\n']).output = st.output ++ lead ++ t ++ ['\n'] by simp [St.push, e, e2]] at e'
    simp only at e'
    have hblank : ¬ p.endLine + 1 < q.startLine := by simp at hs; omega
    simp [serKids, serItemChildren, serItemChild, Node.value, endsLine, Node.isList, Node.pos, hser, hs3, hblank, e']
  · simp at hs

theorem value_of_itemLike {n : Node} (h : isItemLike n = true) : n.value ≠ .paragraph ∧ n.isQuote = false := by
  unfold isItemLike at h
  split at h <;> simp_all [Node.isQuote]

mutual
theorem ser_quote {cx : Cx} (ho : NoNl cx.opts) {flat : Bool} {m : List Char} (hm : flat = true → m = ['>']) :
    ∀ (n : Node) (nb : Bool), wellPlaced n = true → Quotable cx flat n → KidQ cx m ⟨n, ser cx n nb⟩
  | .mk v p cs, nb, hw, hc => by
    refine ⟨ser_ok cx _ nb hw, fun st hq hr => ?_⟩
    rw [wellPlaced, Bool.and_eq_true, Bool.and_eq_true, decide_eq_true_eq, Bool.or_eq_true] at hw
    obtain ⟨⟨_, hi⟩, hwc⟩ := hw
    have hb : isListValue v = false → Blocks (serKids cx cs) := fun hl k hkm => by
      rw [hl] at hi
      have hm : k.node ∈ (serKids cx cs).map (·.node) := List.mem_map.mpr ⟨k, hkm, rfl⟩
      rw [serKids_nodes] at hm
      simpa using List.all_eq_true.mp (hi.resolve_left (by simp)) _ hm
    have hmq : m <+: st.blockquotePrefix ++ ['>'] := (hq.pfx.trans (trimEnd_prefix _)).trans (List.prefix_append _ _)
    simp only [ser]
    cases v <;> simp only [Quotable] at hc
    case paragraph => exact paragraph_adds p _ st hc hq (hr.par rfl)
    case blockQuote =>
      exact quote_adds (serKids_quote ho hm cs hwc hc) (hb rfl) st hq.details (hr.quote rfl) hmq hq.nl
    case alert =>
      exact alert_adds (serKids_quote ho hm cs hwc hc) (hb rfl) _ p st hq.details (hr.quote rfl) hmq hq.nl
    case codeBlock => rw [hm hc.1]; exact code_adds ho _ _ st hq.quote hc.2
    case thematicBreak => rw [hm hc] at hq ⊢; exact break_adds ho st hq
    case table =>
      rw [hm hc.1]
      simp only [dispatch, serKids_nodes]
      exact table_adds p _ cs st hq.quote hc.2
    case list =>
      obtain ⟨_, rfl, ha, hl⟩ := hc
      refine list_adds (serKids_quote ho hm cs hwc hl) (fun k hk => ?_) _ st hq
      have hm : k.node ∈ (serKids cx cs).map (·.node) := List.mem_map.mpr ⟨k, hk, rfl⟩
      rw [serKids_nodes] at hm
      exact value_of_itemLike (List.all_eq_true.mp ha _ hm)
    case item =>
      obtain ⟨rfl, hs, hl⟩ := hc
      cases hm rfl
      obtain ⟨h1, h2⟩ := hr.item rfl
      exact item_adds ho cs hs (serKids_quote ho hm cs hwc hl) hl none st hq h1 h2
    case taskItem =>
      obtain ⟨rfl, hs, hl⟩ := hc
      cases hm rfl
      obtain ⟨h1, h2⟩ := hr.item rfl
      exact item_adds ho cs hs (serKids_quote ho hm cs hwc hl) hl _ st hq h1 h2

theorem serKids_quote {cx : Cx} (ho : NoNl cx.opts) {flat : Bool} {m : List Char} (hm : flat = true → m = ['>']) :
    ∀ (cs : List Node), wellPlacedList cs = true → QuotableList cx flat cs → ∀ k ∈ serKids cx cs, KidQ cx m k
  | [], _, _, k, hk => by simp [serKids] at hk
  | n :: ns, hw, hc, k, hk => by
    rw [wellPlacedList, Bool.and_eq_true] at hw
    rw [QuotableList] at hc
    rw [serKids] at hk
    rcases List.mem_cons.mp hk with rfl | hk
    · exact ser_quote ho hm n _ hw.1 hc.1
    · exact serKids_quote ho hm ns hw.2 hc.2 k hk
end

end Hongdown
