import Verif.Lemmas.Description
import Verif.Lemmas.Layout
import Verif.Props.Quote

/-!
# Description lists: C88
-/

namespace Hongdown.Props
open Model Spec

theorem unlines_split (s : List Char) : unlines (splitOn '\n' s) = s ++ ['\n'] := by
  induction s with
  | nil => rfl
  | cons c cs ih =>
    by_cases h : c = '\n'
    · subst h
      rw [splitOn, if_pos rfl, unlines, List.map_cons, List.flatten_cons]
      rw [unlines] at ih
      rw [ih]; rfl
    · obtain ⟨p, ps, e1, e2⟩ := splitOn_cons_of_ne h cs
      rw [e2, unlines, List.map_cons, List.flatten_cons, List.cons_append, List.cons_append]
      rw [e1, unlines, List.map_cons, List.flatten_cons] at ih
      rw [ih]; rfl

theorem described_of {t : List Char} (h : FW t) : Described ([':', ' ', ' ', ' '] ++ t) := by
  obtain ⟨u, rfl, l, ls, e, hls⟩ := h
  have hn := splitOn_not_mem '\n' u
  rw [e] at hn
  refine ⟨l, ls, ?_, hn l (by simp), fun x hx => ⟨hn x (by simp [hx]), hls x hx⟩⟩
  have := unlines_split u
  rw [e, unlines, List.map_cons, List.flatten_cons] at this
  rw [unlines, List.map_cons, List.flatten_cons, List.append_assoc, List.append_assoc, ← List.append_assoc l, this]
  rfl

theorem details_fold {cx : Cx} (ho : NoNl cx.opts) : ∀ (kids : List Kid) (st : St) (out u : List Char),
    (∀ k ∈ kids, KidD cx k) → Blocks kids → InD st → st.descriptionDetailsFirstList = false →
    st.output = out ++ u → FW u →
    ∃ t, (kids.foldl (fun st k => serDetailsChild cx [] false k st) st).output = out ++ t ∧ FW t
  | [], st, out, u, _, _, _, _, e, hu => ⟨u, e, hu⟩
  | k :: ks, st, out, u, h, hb, hd, hf, e, hu => by
    obtain ⟨t, e1, h1⟩ := detailsRest_writes ho (h k (by simp)) (hb k (by simp)) st hd hf
    have hok := serDetailsChild_ok (h k (by simp)).1 (hb k (by simp)) [] false st
    exact details_fold ho ks (serDetailsChild cx [] false k st) out (u ++ t)
      (fun x hx => h x (by simp [hx])) (fun x hx => hb x (by simp [hx])) (hd.of_ctx hok.ctx) (hok.dd hf)
      (by rw [e1, e, List.append_assoc]) (hu.append h1)

/-- **C88 (partial).** Full statement: without `DescribableList`. A description starts with `:   `, and
each of its later lines is blank or has the four columns of the marker, if it holds paragraphs, code
and lists of them. Missing: what the negations below show. -/
theorem c88_shape_partial (cx : Cx) (before : List Node) (p : Pos) (cs : List Node) (nb : Bool)
    (ho : OptionsOk cx.opts) (hs : '\n' ∉ cx.opts.thematicBreakStyle) (hl : '\n' ∉ cx.opts.defaultLanguage)
    (hw : wellPlaced (.mk .descriptionDetails p cs) = true) (hc : DescribableList cx cs) (hne : cs ≠ []) :
    Described (formatted cx before (.mk .descriptionDetails p cs) nb) := by
  have hno := noNl_of_ok ho hs hl
  rw [wellPlaced, Bool.and_eq_true, Bool.and_eq_true] at hw
  obtain ⟨⟨_, hi⟩, hwc⟩ := hw
  have hb : Blocks (serKids cx cs) := fun k hk => by
    have hm : k.node ∈ (serKids cx cs).map (·.node) := List.mem_map.mpr ⟨k, hk, rfl⟩
    rw [serKids_nodes] at hm
    have hi : (cs.all fun c => !isItemLike c) = true := hi
    simpa using List.all_eq_true.mp hi _ hm
  have hk := serKids_description hno cs hwc hc
  rw [formatted]
  generalize hst : ({ directiveProperNouns := declaredProper before
                      directiveCommonNouns := declaredCommon before } : St) = st
  have hout : st.output = [] := by rw [← hst]
  have hq : st.inBlockQuote = false := by rw [← hst]
  have hen : st.blockquoteEntryListDepth = 0 := by rw [← hst]
  have hf : st.descriptionDetailsFirstList = false := by rw [← hst]
  simp only [ser, dispatch, serDetails]
  have hbq : quotePrefix st = [] := by rw [quotePrefix, hq]; rfl
  rw [hbq]
  cases hks : serKids cx cs with
  | nil =>
    have := serKids_nodes cx cs
    rw [hks] at this
    exact absurd this.symm hne
  | cons k ks =>
    rw [hks] at hk hb
    simp only
    have hd : InD { st with inDescriptionDetails := true } := ⟨rfl, hq, hen⟩
    obtain ⟨t, e1, h1⟩ := detailsFirst_writes hno (hk k (by simp)) (hb k (by simp)) _ hd
    have hok := serDetailsChild_ok (hk k (by simp)).1 (hb k (by simp)) [] true { st with inDescriptionDetails := true }
    obtain ⟨t', e2, h2⟩ := details_fold hno ks _ [':', ' ', ' ', ' '] t
      (fun x hx => hk x (by simp [hx])) (fun x hx => hb x (by simp [hx])) (hd.of_ctx hok.ctx) (hok.dd hf)
      (by rw [e1, hout]; rfl) h1
    rw [e2]
    exact described_of h2

/-- The description of the example: text, a list of code and a list, and code. -/
def exDetails : List Node :=
  let p : Pos := ⟨1, 1, 1, 1⟩
  [exPar [exText "a"], .mk (.list .bullet false) p [exItem [exPar [exText "b"], exPar [exText "c"]],
    .mk (.taskItem none) p [exPar [exText "d"], .mk (.codeBlock [] "x\n\ny\n".toList) p [], exList .ordered [[exPar [exText "e"]]]]],
   .mk (.codeBlock "c".toList "z\n".toList) p []]

example : wellPlaced (.mk .descriptionDetails ⟨1, 1, 1, 1⟩ exDetails) = true := by decide +kernel
example : DescribableList codeCx exDetails := by
  have h : ∀ p, NoAbbreviation codeCx p := fun p s e => by simp [extractSource, codeCx] at e
  simp only [exDetails, DescribableList, Describable, exPar, exItem, exList, List.map, h, and_true, true_and]
  decide +kernel
example : formatted codeCx [] (.mk .descriptionDetails ⟨1, 1, 1, 1⟩ exDetails) false =
    (":   a\n\n     -  b\n\n        c\n\n     -  [ ] d\n\n        ~~~~\n        x\n\n        y\n        ~~~~\n\n" ++
      "         1)  e\n\n    ~~~~ c\n    z\n    ~~~~\n").toList := by decide +kernel

theorem act_at {cx : Cx} {n : Node} {nb : Bool} {st s : St} (hw : wellPlaced n = true) (hv : view st = view s)
    (hs : s.output = []) : (ser cx n nb st).output = st.output ++ (ser cx n nb s).output := by
  obtain ⟨_, t, h1, h2⟩ := ser_par cx n nb hw st s hv
  rw [h1, h2, hs, List.nil_append]

/-- The view of a state after a block. -/
theorem view_act {cx : Cx} {n : Node} {nb : Bool} {st : St} (hw : wellPlaced n = true)
    (hi : isItemLike n = false) (hd : st.descriptionDetailsFirstList = false) : view (ser cx n nb st) = view st :=
  ((ser_ok cx n nb hw).act hi st).view hd

theorem runKids_text {cx : Cx} {s : St} (hs : s.output = []) (hd : s.descriptionDetailsFirstList = false) :
    ∀ (cs : List Node) (st : St), wellPlacedDoc cs = true →
    (∀ c ∈ cs, ∀ nb, ser cx c nb = ser cx c false) → view st = view s →
    (runKids (serKids cx cs) st).output = st.output ++ (cs.map fun c => (ser cx c false s).output).flatten
  | [], st, _, _, hv => by simp [runKids, serKids]
  | n :: ns, st, hw, hn, hv => by
    simp only [wellPlacedDoc, List.all_cons, wellPlacedList, Bool.and_eq_true, Bool.not_eq_true'] at hw
    obtain ⟨⟨hi, hi'⟩, hw, hw'⟩ := hw
    have h1 := act_at (cx := cx) (nb := nextIsBracket ns) hw hv hs
    have h2 := view_act (cx := cx) (st := st) (nb := nextIsBracket ns) hw hi
      ((congrArg St.descriptionDetailsFirstList hv).trans hd)
    have h3 := runKids_text hs hd ns (ser cx n (nextIsBracket ns) st)
      (by simp [wellPlacedDoc, hi', hw']) (fun c hc => hn c (by simp [hc])) (h2.trans hv)
    have : runKids (serKids cx (n :: ns)) st = runKids (serKids cx ns) (ser cx n (nextIsBracket ns) st) := by
      rw [serKids]; rfl
    rw [this, h3, h1, List.map_cons, List.flatten_cons, List.append_assoc, hn n (by simp)]

theorem descriptionList_text {cx : Cx} {s : St} {sep : List Char} (hs : s.output = [])
    (hd : s.descriptionDetailsFirstList = false)
    (hsep : (if s.inBlockQuote then s.listItemIndent ++ trimEnd s.blockquotePrefix ++ ['\n'] else ['\n']) = sep) :
    ∀ (items : List Node) (st : St), wellPlacedList items = true → (∀ n ∈ items, n.value = .descriptionItem) →
    view st = view s →
    (serDescriptionList (serKids cx items) st).output = st.output ++
      joined sep (items.map fun n => (ser cx n false s).output)
  | [], st, _, _, _ => by simp [serKids, serDescriptionList, joined]
  | n :: ns, st, hw, hi, hv => by
    have hnv := hi n (by simp)
    rw [wellPlacedList, Bool.and_eq_true] at hw
    have hnb : ∀ nb, ser cx n nb = ser cx n false := fun nb => by
      obtain ⟨v, q, cs⟩ := n
      simp only [Node.value] at hnv
      subst hnv; rfl
    have h1 := act_at (cx := cx) (nb := false) hw.1 hv hs
    have h2 := (view_act (cx := cx) (st := st) (nb := false) hw.1 (by simp [isItemLike, hnv])
      ((congrArg St.descriptionDetailsFirstList hv).trans hd)).trans hv
    cases ns with
    | nil =>
      simp only [serKids, serDescriptionList, List.map_cons, List.map_nil, joined, hnb]
      exact h1
    | cons m ms =>
      have hsep' : (if (ser cx n false st).inBlockQuote then (ser cx n false st).listItemIndent ++
          trimEnd (ser cx n false st).blockquotePrefix ++ ['\n'] else ['\n']) = sep := by
        have e1 : (ser cx n false st).inBlockQuote = s.inBlockQuote := by
          show (view (ser cx n false st)).inBlockQuote = (view s).inBlockQuote; rw [h2]
        have e2 : (ser cx n false st).listItemIndent = s.listItemIndent := by
          show (view (ser cx n false st)).listItemIndent = (view s).listItemIndent; rw [h2]
        have e3 : (ser cx n false st).blockquotePrefix = s.blockquotePrefix := by
          show (view (ser cx n false st)).blockquotePrefix = (view s).blockquotePrefix; rw [h2]
        rw [e1, e2, e3, hsep]
      have ih := descriptionList_text (cx := cx) hs hd hsep (m :: ms) ((ser cx n false st).push sep) hw.2
        (fun x hx => hi x (by simp [hx])) h2
      rw [serKids]
      have e : serDescriptionList (⟨n, ser cx n (nextIsBracket (m :: ms))⟩ :: serKids cx (m :: ms)) st =
          serDescriptionList (serKids cx (m :: ms)) ((ser cx n false st).push sep) := by
        rw [serKids, serDescriptionList]
        · simp only [hnb, hsep']
        · simp
      rw [e, ih, St.push, h1]
      simp [joined]

/-- **C88.** A description list is the text of its items with a blank line between them, and an item
is its term and then its descriptions, with no blank line between them. -/
theorem c88_list (cx : Cx) (before : List Node) (p : Pos) (items : List Node) (nb : Bool)
    (hw : wellPlaced (.mk .descriptionList p items) = true)
    (hi : ∀ item ∈ items, item.value = .descriptionItem ∧
      ∀ c ∈ item.children, c.value = .descriptionTerm ∨ c.value = .descriptionDetails) :
    formatted cx before (.mk .descriptionList p items) nb =
      joined ['\n'] (items.map fun item => (item.children.map fun c => formatted cx before c false).flatten) := by
  rw [wellPlaced, Bool.and_eq_true] at hw
  have h := descriptionList_text (cx := cx) (s := startSt before) rfl rfl rfl items (startSt before) hw.2
    (fun n hn => (hi n hn).1) rfl
  refine h.trans ((List.nil_append _).trans ?_)
  congr 1
  apply List.map_congr_left
  intro n hn
  obtain ⟨h1, h2⟩ := hi n hn
  have hwn : wellPlaced n = true := by
    have : ∀ l : List Node, wellPlacedList l = true → n ∈ l → wellPlaced n = true := by
      intro l
      induction l with
      | nil => simp
      | cons m l ih =>
        intro hw hm
        rw [wellPlacedList, Bool.and_eq_true] at hw
        rcases List.mem_cons.mp hm with rfl | hm
        · exact hw.1
        · exact ih hw.2 hm
    exact this _ hw.2 hn
  obtain ⟨v, q, cs⟩ := n
  simp only [Node.value] at h1
  subst h1
  rw [wellPlaced, Bool.and_eq_true, Bool.and_eq_true] at hwn
  refine (runKids_text (s := startSt before) rfl rfl cs (startSt before)
    (by rw [wellPlacedDoc, Bool.and_eq_true]; exact ⟨hwn.1.2, hwn.2⟩) (fun c hc nb => ?_) rfl).trans (List.nil_append _)
  obtain ⟨w, _, _⟩ := c
  rcases h2 _ hc with e | e <;> simp only [Node.value] at e <;> subst e <;> rfl

/-- **C88.** In block quotes the blank line between two items has the markers of the quotes. -/
theorem c88_quoted (cx : Cx) (before : List Node) (p q : Pos) (items : List Node) (nb : Bool)
    (hw : wellPlaced (.mk .descriptionList p items) = true) (hi : ∀ item ∈ items, item.value = .descriptionItem) :
    formatted cx before (.mk .blockQuote q [.mk .descriptionList p items]) nb =
      joined ['>', '\n'] (items.map fun item =>
        formatted cx before (.mk .blockQuote q [.mk .descriptionList p [item]]) nb) := by
  rw [wellPlaced, Bool.and_eq_true] at hw
  have h := descriptionList_text (cx := cx) (s := enterQuote (startSt before)) (sep := ['>', '\n']) rfl rfl
    (by simp [enterQuote, startSt]; decide) items (enterQuote (startSt before)) hw.2 hi rfl
  exact h.trans (List.nil_append _)

/-- A description list. -/
def exDescriptions (items : List (String × List (List Node))) : Node :=
  .mk .descriptionList ⟨1, 1, 1, 1⟩ (items.map fun (t, ds) =>
    .mk .descriptionItem ⟨1, 1, 1, 1⟩ (.mk .descriptionTerm ⟨1, 1, 1, 1⟩ [exPar [exText t]] ::
      ds.map fun d => .mk .descriptionDetails ⟨1, 1, 1, 1⟩ d))

example : (formatDoc codeCx (exDoc [exDescriptions [("Moon", [[exPar [exText "a"]], [exPar [exText "b"], exPar [exText "c"]]]),
      ("Sun", [[exPar [exText "d"]]])]])).output =
    "Moon\n:   a\n:   b\n\n    c\n\nSun\n:   d\n".toList := by decide +kernel

example : formatted codeCx [] (.mk .blockQuote ⟨1, 1, 1, 1⟩ [exDescriptions [("Moon", [[exPar [exText "a"]]]),
      ("Sun", [[exPar [exText "d"]]])]]) false =
    "> Moon\n> :   a\n>\n> Sun\n> :   d\n".toList := by decide +kernel

/-! ### Paragraphs -/

theorem detailsParagraphs_text {cx : Cx} : ∀ (cs : List Node) (st : St), (∀ n ∈ cs, n.value = .paragraph) →
    ((serKids cx cs).foldl (fun st k => serDetailsChild cx [] false k st) st).output = st.output ++
      (cs.map fun n => '\n' :: (spaces 4 ++ wrapTextFirstLine cx.width (trim (collectInlines cx n.children).1) [] (spaces 4)
        cx.opts.lineWidth ++ ['\n'])).flatten
  | [], st, _ => by simp [serKids]
  | n :: ns, st, h => by
    obtain ⟨v, p, cs⟩ := n
    have hv := h _ List.mem_cons_self
    simp only [Node.value] at hv
    subst hv
    rw [serKids, List.foldl_cons, detailsParagraphs_text ns _ fun n hn => h n (by simp [hn])]
    obtain ⟨e0, _⟩ := addReferences_keep (st.push ['\n']) (collectInlines cx cs).2
    simp [serDetailsChild, Node.value, Node.children, serDetailsParagraph, St.push]
    simp [St.push] at e0
    rw [e0]
    simp

theorem itemParagraph_text {cx : Cx} {p : Pos} {st : St} (cs : List Node) (ha : NoAbbreviation cx p)
    (h1 : st.inBlockQuote = false) (h2 : st.listType.isSome = true) (h3 : st.inDescriptionDetails = false)
    (h4 : st.listDepth = 1) (h5 : st.blockquoteEntryListDepth = 0) :
    serParagraph cx p cs st = (addReferences st (collectInlines cx cs).2).push
      (wrapTextFirstLine cx.width (trim (collectInlines cx cs).1) [] (spaces 4) cx.opts.lineWidth) := by
  obtain ⟨_, c2, _, c4, _, c6, c7, _, _, _, c11⟩ := ctx_eq (addReferences_keep st (collectInlines cx cs).2).2
  rw [serParagraph, abbreviation_none ha]
  simp only [c2, paragraphContinuation, c4, c6, c7, c11, h1, h2, h3, h4, h5]
  simp

theorem itemParagraphs_text {cx : Cx} {indent : List Char} (prev : Node) (hp : prev.value = .paragraph) : ∀ (cs : List Node)
    (st : St), (∀ n ∈ cs, n.value = .paragraph ∧ NoAbbreviation cx n.pos) →
    st.inBlockQuote = false → st.listType.isSome = true → st.inDescriptionDetails = false → st.listDepth = 1 →
    st.blockquoteEntryListDepth = 0 →
    (serItemChildren cx indent (some prev) (serKids cx cs) st).output = st.output ++
      (cs.map fun n => '\n' :: '\n' :: (indent ++ wrapTextFirstLine cx.width (trim (collectInlines cx n.children).1) [] (spaces 4)
        cx.opts.lineWidth)).flatten
  | [], st, _, _, _, _, _, _ => by simp [serKids, serItemChildren]
  | n :: ns, st, h, h1, h2, h3, h4, h5 => by
    obtain ⟨v, p, cs⟩ := n
    obtain ⟨hv, ha'⟩ := h _ List.mem_cons_self
    have ha : NoAbbreviation cx p := ha'
    simp only [Node.value] at hv
    subst hv
    rw [serKids, serItemChildren]
    have hpc : prev.isCodeBlock = false ∧ prev.isList = false := by simp [Node.isCodeBlock, Node.isList, hp]
    obtain ⟨e0, e⟩ := addReferences_keep (st.push (['\n', '\n'] ++ indent)) (collectInlines cx cs).2
    have e1 : serItemChild cx indent (some prev) ⟨.mk .paragraph p cs, ser cx (.mk .paragraph p cs) (nextIsBracket ns)⟩ st =
        serParagraph cx p cs (st.push (['\n', '\n'] ++ indent)) := by
      rw [serItemChild.eq_def]
      simp only [Node.value, hpc, h1, Bool.or_self, Bool.false_eq_true, if_false, List.append_nil, ser, dispatch, serKids_nodes]
    have e2 := itemParagraph_text (cx := cx) (p := p) (st := st.push (['\n', '\n'] ++ indent)) cs ha h1 h2 h3 h4 h5
    rw [e1, e2]
    generalize hst : (addReferences (st.push (['\n', '\n'] ++ indent)) (collectInlines cx cs).2).push
          (wrapTextFirstLine cx.width (trim (collectInlines cx cs).1) [] (spaces 4) cx.opts.lineWidth) = s
    have ec : ctx s = ctx st := by rw [← hst]; exact e
    obtain ⟨_, c2, _, c4, _, c6, c7, _, _, _, c11⟩ := ctx_eq ec
    rw [itemParagraphs_text _ rfl ns s (fun n hn => h n (by simp [hn])) (c4.trans h1) (by rw [c2]; exact h2) (c7.trans h3)
      (c6.trans h4) (c11.trans h5)]
    rw [← hst, St.push, e0]
    simp [St.push, Node.children]

theorem shift_break (x : List Char) : ∀ l : List (List Char),
    x ++ '\n' :: (l.map fun w => '\n' :: (spaces 4 ++ w ++ ['\n'])).flatten =
      x ++ (l.map fun w => '\n' :: '\n' :: (spaces 4 ++ w)).flatten ++ ['\n']
  | [] => by simp
  | w :: l => by
    have := shift_break (x ++ '\n' :: '\n' :: (spaces 4 ++ w)) l
    simpa using this

theorem item_text {cx : Cx} {task : Option (Option Char)} {kids : List Kid} {st : St}
    (hlast : (kids.getLast?.any fun k => endsLine k.node) = false) :
    (serItem cx task kids st).output = (serItemChildren cx
      (itemIndent cx (({ st with listItemIndex := st.listItemIndex + 1 } : St).push
        (itemLead cx task { st with listItemIndex := st.listItemIndex + 1 }))) none kids
      { (({ st with listItemIndex := st.listItemIndex + 1 } : St).push
          (itemLead cx task { st with listItemIndex := st.listItemIndex + 1 })) with
        listItemIndent := itemIndent cx (({ st with listItemIndex := st.listItemIndex + 1 } : St).push
          (itemLead cx task { st with listItemIndex := st.listItemIndex + 1 })) }).output ++ ['\n'] := by
  rw [serItem]
  simp only [hlast, Bool.false_eq_true, if_false]
  rfl

theorem item_begin {cx : Cx} {o : Pos} {ds ns : List Node} (ha : NoAbbreviation cx o)
    (h4 : cx.opts.leadingSpaces + 1 + cx.opts.trailingSpaces = 4) (s : St) (e2 : s.inBlockQuote = false)
    (e3 : s.listType = some .bullet) (e4 : s.inDescriptionDetails = false) (e5 : s.listDepth = 1)
    (e6 : s.blockquoteEntryListDepth = 0) (e7 : s.listItemIndex = 0)
    (hns : ∀ n ∈ ns, n.value = .paragraph ∧ NoAbbreviation cx n.pos) :
    (serItemChildren cx
      (itemIndent cx (({ s with listItemIndex := s.listItemIndex + 1 } : St).push
        (itemLead cx none { s with listItemIndex := s.listItemIndex + 1 }))) none (serKids cx (.mk .paragraph o ds :: ns))
      { (({ s with listItemIndex := s.listItemIndex + 1 } : St).push
          (itemLead cx none { s with listItemIndex := s.listItemIndex + 1 })) with
        listItemIndent := itemIndent cx (({ s with listItemIndex := s.listItemIndex + 1 } : St).push
          (itemLead cx none { s with listItemIndex := s.listItemIndex + 1 })) }).output = s.output ++
      (spaces cx.opts.leadingSpaces ++ [cx.opts.unorderedMarker] ++ spaces cx.opts.trailingSpaces) ++
      wrapTextFirstLine cx.width (trim (collectInlines cx ds).1) [] (spaces 4) cx.opts.lineWidth ++
      (ns.map fun n => '\n' :: '\n' :: (spaces 4 ++ wrapTextFirstLine cx.width (trim (collectInlines cx n.children).1) []
        (spaces 4) cx.opts.lineWidth)).flatten := by
  generalize hs1 : ({ s with listItemIndex := s.listItemIndex + 1 } : St) = s1
  have f1 : s1.output = s.output := by rw [← hs1]
  have f2 : s1.inBlockQuote = false := by rw [← hs1]; exact e2
  have f3 : s1.listType = some .bullet := by rw [← hs1]; exact e3
  have f4 : s1.inDescriptionDetails = false := by rw [← hs1]; exact e4
  have f5 : s1.listDepth = 1 := by rw [← hs1]; exact e5
  have f6 : s1.blockquoteEntryListDepth = 0 := by rw [← hs1]; exact e6
  have f7 : s1.listItemIndex = 1 := by rw [← hs1]; simp [e7]
  have hlead : itemLead cx none s1 = spaces cx.opts.leadingSpaces ++ [cx.opts.unorderedMarker] ++
      spaces cx.opts.trailingSpaces := by
    simp [itemLead, itemMarker, taskBox, f2, f3, f4, f5, f7]
  rw [hlead]
  generalize hld : spaces cx.opts.leadingSpaces ++ [cx.opts.unorderedMarker] ++ spaces cx.opts.trailingSpaces = lead
  have hind : itemIndent cx (s1.push lead) = spaces 4 := by
    simp [itemIndent, markerWidth, St.push, f3, f4, f5, h4]
  rw [hind]
  generalize hs2 : ({ s1.push lead with listItemIndent := spaces 4 } : St) = s2
  have g1 : s2.output = s.output ++ lead := by rw [← hs2, ← f1]; rfl
  have g2 : s2.inBlockQuote = false := by rw [← hs2]; exact f2
  have g3 : s2.listType.isSome = true := by rw [← hs2]; simp [St.push, f3]
  have g4 : s2.inDescriptionDetails = false := by rw [← hs2]; exact f4
  have g5 : s2.listDepth = 1 := by rw [← hs2]; exact f5
  have g6 : s2.blockquoteEntryListDepth = 0 := by rw [← hs2]; exact f6
  rw [serKids, serItemChildren]
  have e8 : serItemChild cx (spaces 4) none ⟨.mk .paragraph o ds, ser cx (.mk .paragraph o ds) (nextIsBracket ns)⟩ s2 =
      serParagraph cx o ds s2 := by
    rw [serItemChild.eq_def]
    simp only [Node.value, ser, dispatch, serKids_nodes]
  rw [e8, itemParagraph_text ds ha g2 g3 g4 g5 g6]
  obtain ⟨e0, e⟩ := addReferences_keep s2 (collectInlines cx ds).2
  obtain ⟨_, c2, _, c4, _, c6, c7, _, _, _, c11⟩ := ctx_eq e
  rw [itemParagraphs_text _ rfl ns ((addReferences s2 (collectInlines cx ds).2).push
    (wrapTextFirstLine cx.width (trim (collectInlines cx ds).1) [] (spaces 4) cx.opts.lineWidth)) hns (c4.trans g2) (by rw [St.push]; simp only [c2]; exact g3) (c7.trans g4)
    (c6.trans g5) (c11.trans g6), St.push]
  simp only [e0, g1]

/-- **C88.** With an indentation of four columns, a description of paragraphs is written like an item
of a bullet list, with `:   ` for its marker. -/
theorem c88_like_item (cx : Cx) (before : List Node) (p q r : Pos) (cs : List Node) (nb tight : Bool)
    (h4 : cx.opts.leadingSpaces + 1 + cx.opts.trailingSpaces = 4) (hne : cs ≠ [])
    (hc : ∀ n ∈ cs, n.value = .paragraph ∧ NoAbbreviation cx n.pos) :
    ∃ text, formatted cx before (.mk .descriptionDetails p cs) nb = ":   ".toList ++ text ∧
      formatted cx before (.mk (.list .bullet tight) q [.mk .item r cs]) nb =
        List.replicate cx.opts.leadingSpaces ' ' ++ [cx.opts.unorderedMarker] ++
          List.replicate cx.opts.trailingSpaces ' ' ++ text := by
  have hlast : ((serKids cx cs).getLast?.any fun k => endsLine k.node) = false := by
    cases e : (serKids cx cs).getLast? with
    | none => rfl
    | some k =>
      have hm : k.node ∈ (serKids cx cs).map (·.node) := List.mem_map.mpr ⟨k, List.mem_of_getLast? e, rfl⟩
      rw [serKids_nodes] at hm
      simp [endsLine, Node.isList, Node.isCodeBlock, Node.isQuote, (hc _ hm).1]
  cases cs with
  | nil => exact absurd rfl hne
  | cons n ns =>
    obtain ⟨v, o, ds⟩ := n
    obtain ⟨hv, ha'⟩ := hc _ List.mem_cons_self
    have ha : NoAbbreviation cx o := ha'
    simp only [Node.value] at hv
    subst hv
    have hns : ∀ n ∈ ns, n.value = .paragraph ∧ NoAbbreviation cx n.pos := fun n hn => hc n (by simp [hn])
    refine ⟨wrapTextFirstLine cx.width (trim (collectInlines cx ds).1) [] (spaces 4) cx.opts.lineWidth ++
      '\n' :: ((ns.map fun n => wrapTextFirstLine cx.width (trim (collectInlines cx n.children).1) [] (spaces 4)
        cx.opts.lineWidth).map fun w => '\n' :: (spaces 4 ++ w ++ ['\n'])).flatten, ?_, ?_⟩
    · rw [formatted]
      simp only [ser, dispatch, serDetails, serKids, quotePrefix, Bool.false_eq_true, if_false]
      rw [detailsParagraphs_text ns _ fun n hn => (hns n hn).1]
      rw [serDetailsChild.eq_def]
      simp only [if_true, Node.value, Node.children, serDetailsParagraph, St.push]
      rw [(addReferences_keep _ _).1]
      simp [Function.comp_def]
    · rw [shift_break, formatted]
      have hser : ∀ st : St, (ser cx (.mk (.list .bullet tight) q [.mk .item r (.mk .paragraph o ds :: ns)]) nb st).output =
          (serItem cx none (serKids cx (.mk .paragraph o ds :: ns)) { st with
            listType := some .bullet
            listTight := tight
            listItemIndex := 0
            listDepth := st.listDepth + 1 }).output := fun _ => rfl
      rw [hser]
      generalize hs : ({ directiveProperNouns := declaredProper before
                         directiveCommonNouns := declaredCommon before
                         listType := some .bullet
                         listTight := tight
                         listItemIndex := 0
                         listDepth := 0 + 1 } : St) = s
      rw [item_text hlast, item_begin ha h4 s (by rw [← hs]) (by rw [← hs]) (by rw [← hs]) (by rw [← hs]) (by rw [← hs])
        (by rw [← hs]) hns, ← hs]
      simp [spaces, Function.comp_def]

example : formatted codeCx [] (.mk .descriptionDetails ⟨1, 1, 1, 1⟩ [exPar [exText "a"], exPar [exText "b"]]) false =
      ":   a\n\n    b\n".toList ∧
    formatted codeCx [] (exList .bullet [[exPar [exText "a"], exPar [exText "b"]]]) false = " -  a\n\n    b\n".toList := by
  decide +kernel

/-! ### What is false -/

theorem described_split {t : List Char} (h : Described t) : (":   ".toList.isPrefixOf t &&
    ((splitOn '\n' t).drop 1).all fun l => (l.all (· == ' ') || "    ".toList.isPrefixOf l)) = true := by
  obtain ⟨l, ls, rfl, hn, hl⟩ := h
  have := splitOn_unlines (ls := (":   ".toList ++ l) :: ls) (fun x hx => by
    rcases List.mem_cons.mp hx with rfl | hx
    · simp only [List.mem_append, not_or]; exact ⟨by decide, hn⟩
    · exact (hl x hx).1) []
  rw [List.append_nil] at this
  rw [this, Bool.and_eq_true]
  refine ⟨by rw [List.isPrefixOf_iff_prefix]; simp [unlines], ?_⟩
  rw [List.cons_append, List.drop_one, List.tail_cons, List.all_eq_true]
  intro x hx
  rcases List.mem_append.mp hx with hx | hx
  · rw [Bool.or_eq_true]
    rcases (hl x hx).2 with h | h
    · left; rw [List.all_eq_true]; intro c hc; simp [h c hc]
    · exact .inr (List.isPrefixOf_iff_prefix.2 h)
  · simp [splitOn] at hx; simp [hx]

/-- **C88.** False for tables: only the first line of a table has the columns of the description. -/
theorem c88_table_false : ¬ ∀ (aligns : List Align) (rows : List Node),
    Described (formatted codeCx [] (.mk .descriptionDetails ⟨1, 1, 1, 1⟩ [.mk (.table aligns) ⟨1, 1, 1, 1⟩ rows]) false) := by
  intro h
  exact absurd (described_split (h [.left] [.mk .tableRow ⟨1, 1, 1, 1⟩ [.mk .tableCell ⟨1, 1, 1, 1⟩ [exText "d"]]]))
    (by decide +kernel)

/-- **C88.** The same for blocks of HTML. -/
theorem c88_html_false : ¬ ∀ (literal : List Char),
    Described (formatted codeCx [] (.mk .descriptionDetails ⟨1, 1, 1, 1⟩
      [exPar [exText "a"], .mk (.htmlBlock (literal ++ ['\n'])) ⟨1, 1, 1, 1⟩ []]) false) := by
  intro h
  exact absurd (described_split (h "<p>\na\n</p>".toList)) (by decide +kernel)

/-- **C88.** The same for underlined headings. -/
theorem c88_heading_false : ¬ ∀ (level : Nat) (text : String), 1 ≤ level → level ≤ 6 →
    Described (formatted codeCx [] (.mk .descriptionDetails ⟨1, 1, 1, 1⟩
      [.mk (.heading level) ⟨1, 1, 1, 1⟩ [exText text]]) false) := by
  intro h
  exact absurd (described_split (h 1 "Title" (by decide) (by decide))) (by decide +kernel)

/-- **C88.** False for a description which begins with a block quote: there is no space after its
colon, so the marker is none. -/
theorem c88_quote_false : ¬ ∀ (text : String),
    Described (formatted codeCx [] (.mk .descriptionDetails ⟨1, 1, 1, 1⟩
      [.mk .blockQuote ⟨1, 1, 1, 1⟩ [exPar [exText text]]]) false) := by
  intro h
  exact absurd (described_split (h "a")) (by decide +kernel)

/-- **C88.** False for code in a block quote: its lines are not indented. -/
theorem c88_quoted_code_false : ¬ ∀ (code : List Char),
    Described (formatted codeCx [] (.mk .descriptionDetails ⟨1, 1, 1, 1⟩
      [exPar [exText "a"], .mk .blockQuote ⟨1, 1, 1, 1⟩ [.mk (.codeBlock [] (code ++ ['\n'])) ⟨1, 1, 1, 1⟩ []]]) false) := by
  intro h
  exact absurd (described_split (h "x".toList)) (by decide +kernel)

/-- **C88.** The lines of a description list in a block quote need not have the marker of the quote:
the blank lines within a description end the quote. -/
theorem c88_marker_false : ¬ ∀ (a b : String),
    Prefixed ['>'] (formatted codeCx [] (.mk .blockQuote ⟨1, 1, 1, 1⟩
      [exDescriptions [("Term", [[exPar [exText a], exPar [exText b]]])]]) false) := by
  intro h
  exact absurd (prefixed_split (h "a" "b")) (by decide +kernel)

/-- **C88.** A description list in an item of a list does not get lines of its own: the text before
it, its term and its marker become one line. -/
theorem c88_item_false : ¬ ∀ (a term b : String), ∃ l ∈ splitOn '\n' (formatted codeCx []
    (exList .bullet [[exPar [exText a], exDescriptions [(term, [[exPar [exText b]]])]]]) false),
    "    :   ".toList <+: l := by
  intro h
  have h := h "a" "Term" "b"
  simp only [← List.isPrefixOf_iff_prefix] at h
  revert h
  decide +kernel

/-- **C88.** The columns of the marker are not counted for the first line: it can be longer than the
limit although each of its words is short. -/
theorem c88_width_false : ¬ ∀ (text : List Char), (∀ w ∈ splitWs text, w.length ≤ 10) →
    ∀ l ∈ splitOn '\n' (formatted codeCx [] (.mk .descriptionDetails ⟨1, 1, 1, 1⟩
      [exPar [.mk (.text text) ⟨1, 1, 1, 1⟩ []]]) false), l.length ≤ codeCx.opts.lineWidth := by
  intro h
  have h := h "word word word word word word word word word word word word word word word word word".toList (by decide +kernel)
  revert h
  decide +kernel

end Hongdown.Props
