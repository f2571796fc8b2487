import Verif.Spec.FileEnd
import Verif.Lemmas.Prefix
import Verif.Lemmas.WrapEnd
import Verif.Lemmas.Keep
import Verif.Lemmas.LineEndDoc

/-!
# The end of a file
-/

namespace Hongdown
open Model Spec

theorem oneBreak_of {t : List Char} {c : Char} (h : t.getLast? = some c) (hc : c ≠ '\n') : OneBreak (t ++ ['\n']) := by
  obtain ⟨u, rfl⟩ := getLast_snoc_iff.mp h
  exact ⟨u, c, by simp, hc⟩

theorem Spec.OneBreak.left {t : List Char} (h : OneBreak t) (x : List Char) : OneBreak (x ++ t) := by
  obtain ⟨u, c, rfl, hc⟩ := h
  exact ⟨x ++ u, c, by simp, hc⟩

theorem visible_ne {c : Char} (h : isWs c = false) : c ≠ '\n' := by
  rintro rfl; revert h; decide

theorem wrapTextFirstLine_end (w : List Char → Nat) {text fp pfx : List Char} {lw : Nat} {c : Char}
    (h : text.getLast? = some c) (hc : isWs c = false) (hn : c ≠ nul) :
    (wrapTextFirstLine w text fp pfx lw).getLast? = some c := by
  have hs := splitOn_end h (visible_ne hc)
  rw [wrapTextFirstLine]
  split
  · next e => exact absurd e (splitOn_ne_nil _ _)
  · exact wrapSegment_end w h hc hn
  · next s rest hne e =>
    simp only [e] at hs
    cases rest with
    | nil => exact absurd rfl hne
    | cons r rest =>
      rw [List.getLast_cons (by simp)] at hs
      refine getLast_append_some ?_
      have : ∀ (l : List (List Char)) (hl : l ≠ []), (l.getLast hl).getLast? = some c →
          (l.flatMap fun s => [' ', ' ', '\n'] ++ pfx ++ wrapSegment w s [] pfx lw).getLast? = some c := by
        intro l hl hlast
        obtain ⟨l', x, rfl⟩ : ∃ l' x, l = l' ++ [x] := ⟨l.dropLast, l.getLast hl, (List.dropLast_concat_getLast hl).symm⟩
        rw [List.getLast_concat] at hlast
        rw [List.flatMap_append]
        refine getLast_append_some ?_
        simp only [List.flatMap_cons, List.flatMap_nil, List.append_nil]
        exact getLast_append_some (wrapSegment_end w hlast hc hn)
      exact this _ (by simp) hs

theorem fence_last {o : Options} (h : FenceFine o) (content : List Char) :
    (List.replicate (fenceLength o.minFenceLength o.fenceChar content) o.fenceChar).getLast? = some o.fenceChar := by
  have : 1 ≤ fenceLength o.minFenceLength o.fenceChar content := Nat.le_trans h.1 (Nat.le_max_left _ _)
  rw [List.getLast?_replicate, if_neg (by omega)]

theorem codeBlock_end {cx : Cx} (h : FenceFine cx.opts) (info literal : List Char) (st : St) :
    OneBreak (serCodeBlock cx info literal st).output := by
  simp only [serCodeBlock, St.push, codeBlockText]
  simp only [← List.append_assoc]
  exact oneBreak_of (getLast_append_some (fence_last h _)) h.2

theorem codeBlockIndented_end {cx : Cx} (h : FenceFine cx.opts) (info literal indent : List Char) (st : St) :
    OneBreak (serCodeBlockIndented cx info literal indent st).output := by
  simp only [serCodeBlockIndented, St.push, codeBlockIndentedText]
  simp only [← List.append_assoc]
  exact oneBreak_of (getLast_append_some (fence_last h _)) h.2

theorem codeBlockWithIndent_end {cx : Cx} (h : FenceFine cx.opts) (info literal indent : List Char) (st : St) :
    OneBreak (serCodeBlockWithIndent cx info literal indent st).output := by
  simp only [serCodeBlockWithIndent, St.push, codeBlockWithIndentText]
  simp only [← List.append_assoc]
  have hb : (List.replicate cx.opts.minFenceLength cx.opts.fenceChar).getLast? = some cx.opts.fenceChar := by
    rw [List.getLast?_replicate, if_neg (by have := h.1; omega)]
  refine oneBreak_of (c := cx.opts.fenceChar) (getLast_append_some ?_) h.2
  split
  · exact getLast_append_some (a := [cx.opts.fenceChar]) hb
  · exact hb

theorem abbreviation_end {cx : Cx} {p : Pos} {src : List Char} (hs : abbreviationDef cx p = some src) :
    OneBreak (src ++ ['\n']) := by
  have hab : src = trim src ∧ src ≠ [] := by
    rw [abbreviationDef] at hs
    split at hs
    · cases hs
    · split at hs
      · rename_i hc
        cases hs
        refine ⟨(trim_trim _).symm, ?_⟩
        intro h0
        rw [h0] at hc
        simp at hc
      · cases hs
  cases hl : src.getLast? with
  | none => exact absurd (by simpa using hl) hab.2
  | some d => exact oneBreak_of hl (visible_ne (trim_getLast src d (by rw [← hab.1]; exact hl)))

theorem addReferences_listType (rs : List Ref) : ∀ s : St, (addReferences s rs).listType = s.listType := by
  induction rs with
  | nil => exact fun _ => rfl
  | cons r rs ih =>
    intro s
    show (addReferences (addReference s r) rs).listType = _
    rw [ih, addReference]
    split <;> rfl

theorem paragraph_end {cx : Cx} {ks : List Node} (h : VisibleEnd cx ks) (p : Pos) (st : St) (hl : st.listType = none) :
    OneBreak (serParagraph cx p ks st).output := by
  obtain ⟨c, h1, h2, h3⟩ := h
  rw [serParagraph]
  split
  · next src hs => exact (abbreviation_end hs).left _
  · simp only
    rw [if_neg (by rw [addReferences_listType, hl]; simp)]
    simp only [St.push, ← List.append_assoc]
    exact oneBreak_of (getLast_append_some (wrapText_end _ h1 h2 h3)) (visible_ne h2)

theorem itemParagraph_end {cx : Cx} {ks : List Node} (h : VisibleEnd cx ks) {p : Pos} (hp : abbreviationDef cx p = none)
    (st : St) (hl : st.listType.isSome = true) : ∃ c, (serParagraph cx p ks st).output.getLast? = some c ∧ c ≠ '\n' := by
  obtain ⟨c, h1, h2, h3⟩ := h
  rw [serParagraph, hp]
  simp only
  rw [if_pos (by rw [addReferences_listType, hl])]
  exact ⟨c, getLast_append_some (wrapTextFirstLine_end _ (trim_last h1 h2) h2 h3), visible_ne h2⟩

theorem detailsParagraph_end {cx : Cx} {ks : List Node} (h : VisibleEnd cx ks) (bq lead : List Char) (st : St) :
    OneBreak (serDetailsParagraph cx bq lead ks st).output := by
  obtain ⟨c, h1, h2, h3⟩ := h
  simp only [serDetailsParagraph, St.push, ← List.append_assoc]
  exact oneBreak_of (getLast_append_some (wrapTextFirstLine_end _ (trim_last h1 h2) h2 h3)) (visible_ne h2)

theorem heading_end {cx : Cx} {ks : List Node} (h1 : cx.opts.headingSentenceCase = false)
    (h2 : '\n' ∉ (collectTexts cx ks).1) (h3 : 1 ≤ cx.width (collectTexts cx ks).1) (l : Nat) (st : St) :
    OneBreak (serHeading cx l ks st).output := by
  simp only [serHeading, h1, Bool.false_eq_true, if_false, St.push, headingText]
  split
  · simp only [← List.append_assoc]
    refine oneBreak_of (c := '=') (getLast_append_some ?_) (by decide)
    rw [List.getLast?_replicate, if_neg (by omega)]
  · split
    · simp only [← List.append_assoc]
      refine oneBreak_of (c := '-') (getLast_append_some ?_) (by decide)
      rw [List.getLast?_replicate, if_neg (by omega)]
    · simp only [← List.append_assoc]
      cases hl : (collectTexts cx ks).1.getLast? with
      | some d =>
        refine oneBreak_of (getLast_append_some hl) ?_
        rintro rfl
        exact h2 (List.mem_of_getLast? hl)
      | none =>
        have : (collectTexts cx ks).1 = [] := by simpa using hl
        rw [this, List.append_nil]
        exact oneBreak_of (c := ' ') (getLast_append_some rfl) (by decide)

theorem mapIdx_end {α : Type} (f : Nat → α → List Char) (xs : List α) :
    OneBreak (['|'] ++ (xs.mapIdx fun i x => f i x ++ [' ', '|']).flatten ++ ['\n']) := by
  refine oneBreak_of (c := '|') ?_ (by decide)
  cases h : xs.reverse with
  | nil =>
    have : xs = [] := by simpa using h
    simp [this]
  | cons y ys =>
    have e : xs = ys.reverse ++ [y] := by rw [← List.reverse_reverse xs, h]; simp
    rw [e, List.mapIdx_append, List.flatten_append]
    simp only [← List.append_assoc]
    refine getLast_append_some ?_
    simp only [List.mapIdx_cons, List.mapIdx_nil, List.flatten_cons, List.flatten_nil, List.append_nil]
    exact getLast_append_some rfl

theorem row_end (w : List Char → Nat) (ws : List Nat) (as : List Align) (cells : List (List Char)) :
    OneBreak (rowText w ws as cells) :=
  mapIdx_end (fun i cell => [' '] ++ formatCell w cell (ws.getD i 3) (as.getD i .none)) cells

theorem delim_end (ws : List Nat) (as : List Align) : OneBreak (delimText ws as) :=
  mapIdx_end (fun i a => [' '] ++ delimCell (ws.getD i 3) a) as

theorem table_end (w : List Char → Nat) (q : Bool) (as : List Align) {rows : List (List (List Char))} (h : rows ≠ []) :
    OneBreak (tableText w q as rows) := by
  cases rows with
  | nil => exact absurd rfl h
  | cons r rs =>
    rw [tableText]
    cases hr : rs.reverse with
    | nil =>
      have : rs = [] := by simpa using hr
      rw [this]
      simp only [List.flatMap_nil, List.append_nil]
      exact (delim_end _ _).left _
    | cons x xs =>
      have e : rs = xs.reverse ++ [x] := by rw [← List.reverse_reverse rs, hr]; simp
      rw [e, List.flatMap_append]
      simp only [List.flatMap_cons, List.flatMap_nil, List.append_nil, ← List.append_assoc]
      exact (row_end _ _ _ _).left _

theorem serTable_end {cx : Cx} {rows : List Node} (h : rows ≠ []) (p : Pos) (as : List Align) (st : St) :
    OneBreak (serTable cx p as rows st).output := by
  rw [serTable, if_neg (by simpa using h)]
  exact (table_end _ _ _ (rows := (rows.map fun r => r.children.map (cellInline cx)).map (·.map (·.1)))
    (by simpa using h)).left _

theorem serKids_snoc (cx : Cx) (n : Node) : ∀ ks : List Node, ∃ K nb, serKids cx (ks ++ [n]) = K ++ [⟨n, ser cx n nb⟩]
  | [] => ⟨[], _, rfl⟩
  | k :: ks => by
    obtain ⟨K, nb, e⟩ := serKids_snoc cx n ks
    exact ⟨⟨k, ser cx k (nextIsBracket (ks ++ [n]))⟩ :: K, nb, by rw [List.cons_append, serKids, e]; rfl⟩

/-- The children before the last one, as they are serialized. -/
theorem kids_snoc {cx : Cx} {v : NodeValue} {p : Pos} {ks : List Node} {n : Node} (h : wellPlaced (.mk v p (ks ++ [n])) = true) :
    ∃ K nb, serKids cx (ks ++ [n]) = K ++ [⟨n, ser cx n nb⟩] ∧ (∀ k ∈ K, KidOk cx k) ∧
      (isListValue v = false → Blocks K ∧ isItemLike n = false) ∧ wellPlaced n = true := by
  rw [wellPlaced, Bool.and_eq_true, Bool.and_eq_true, decide_eq_true_eq, Bool.or_eq_true] at h
  obtain ⟨⟨_, hi⟩, hc⟩ := h
  obtain ⟨K, nb, e⟩ := serKids_snoc cx n ks
  have hok := serKids_ok cx _ hc
  rw [e] at hok
  refine ⟨K, nb, e, fun k hk => hok k (by simp [hk]), fun hv => ?_, ?_⟩
  · have hi : (ks ++ [n]).all (fun c => !isItemLike c) = true := hi.resolve_left (by simp [hv])
    rw [List.all_eq_true] at hi
    refine ⟨fun k hk => ?_, by simpa using hi n (by simp)⟩
    have hm : k.node ∈ (serKids cx (ks ++ [n])).map (·.node) := by
      rw [e]; exact List.mem_map.mpr ⟨k, by simp [hk], rfl⟩
    rw [serKids_nodes] at hm
    simpa using hi _ hm
  · have := wellPlacedList_append.mp hc
    simpa [wellPlacedList] using this.2

theorem runKids_snoc (K : List Kid) (k : Kid) (st : St) : runKids (K ++ [k]) st = k.act (runKids K st) := by
  simp [runKids]

theorem quoteChildren_snoc (sep : List Char) (k : Kid) : ∀ (K : List Kid) (st : St), ∃ s,
    serQuoteChildren sep (K ++ [k]) st = k.act s ∧ ∀ cx, (∀ x ∈ K, KidOk cx x) → Blocks K → ctx s = ctx st
  | [], st => ⟨st, rfl, fun _ _ _ => rfl⟩
  | x :: K, st => by
    obtain ⟨s, h1, h2⟩ := quoteChildren_snoc sep k K ((x.act st).push sep)
    refine ⟨s, ?_, fun cx hk hb => (h2 cx (fun y hy => hk y (by simp [hy])) fun y hy => hb y (by simp [hy])).trans
      ((hk x (by simp)).act (hb x (by simp)) st).ctx⟩
    rw [List.cons_append, serQuoteChildren.eq_3 _ _ _ _ (by simp), h1]

theorem blockQuote_end {cx : Cx} {K : List Kid} {k : Kid} (hk : ∀ x ∈ K, KidOk cx x) (hb : Blocks K)
    (h : ∀ s : St, s.listType = none → OneBreak (k.act s).output) (st : St) : OneBreak (serBlockQuote (K ++ [k]) st).output := by
  rw [serBlockQuote]
  obtain ⟨s, h1, h2⟩ := quoteChildren_snoc (st.listItemIndent ++ st.blockquotePrefix ++ ['>', '\n']) k K (enterQuote st)
  rw [h1]
  exact h s ((ctx_eq (h2 cx hk hb)).2.1)

theorem itemChildren_snoc {cx : Cx} (indent : List Char) (k : Kid) : ∀ (K : List Kid) (prev : Option Node) (st : St),
    (∀ x ∈ K, KidOk cx x) → Blocks K → ∃ p s, serItemChildren cx indent prev (K ++ [k]) st = serItemChild cx indent p k s ∧
      s.listType = st.listType
  | [], prev, st, _, _ => ⟨prev, st, rfl, rfl⟩
  | x :: K, prev, st, hk, hb => by
    obtain ⟨p, s, h1, h2⟩ := itemChildren_snoc indent k K (some x.node) (serItemChild cx indent prev x st)
      (fun y hy => hk y (by simp [hy])) (fun y hy => hb y (by simp [hy]))
    refine ⟨p, s, by rw [List.cons_append, serItemChildren, h1], h2.trans ?_⟩
    exact (ctx_eq (serItemChild_ok (hk x (by simp)) (hb x (by simp)) indent prev st).ctx).2.1

theorem descriptions_snoc (k : Kid) : ∀ (K : List Kid) (st : St), ∃ s, serDescriptionList (K ++ [k]) st = k.act s
  | [], st => ⟨st, rfl⟩
  | x :: K, st => by
    have : ∃ y K', K ++ [k] = y :: K' := by cases K <;> simp
    obtain ⟨y, K', e⟩ := this
    rw [List.cons_append, serDescriptionList.eq_3 _ _ _ (by simp)]
    exact descriptions_snoc k K _

theorem details_snoc (cx : Cx) (k : Kid) (K : List Kid) (st : St) : ∃ bq first s,
    (serDetails cx (K ++ [k]) st).output = (serDetailsChild cx bq first k s).output := by
  cases K with
  | nil => exact ⟨_, true, _, rfl⟩
  | cons x K => exact ⟨_, false, _, by unfold serDetails; simp only [List.cons_append, List.foldl_append, List.foldl_cons, List.foldl_nil]; rfl⟩

mutual
theorem block_end {cx : Cx} : ∀ {n : Node}, BlockEnd cx n → wellPlaced n = true → ∀ (nb : Bool) (st : St),
    (n.value = .paragraph → st.listType = none) → OneBreak (ser cx n nb st).output
  | _, .paragraph q ks h, _, nb, st, hl => by
    simp only [ser, dispatch, serKids_nodes]
    exact paragraph_end h q st (hl rfl)
  | _, .heading q ks l h1 h2 h3, _, nb, st, _ => by
    simp only [ser, dispatch, serKids_nodes]
    exact heading_end h1 h2 h3 l st
  | _, .code q ks info literal h, _, nb, st, _ => by
    simp only [ser, dispatch]
    exact codeBlock_end h info literal st
  | _, .rule q ks c h1 h2, _, nb, st, _ => by
    simp only [ser, dispatch, serThematicBreak, St.push, ← List.append_assoc]
    exact oneBreak_of (getLast_append_some h1) h2
  | _, .html q ks literal h, _, nb, st, _ => by
    simp only [ser, dispatch, St.push]
    exact h.left _
  | _, .table q ks as h, _, nb, st, _ => by
    simp only [ser, dispatch, serKids_nodes]
    exact serTable_end h q as st
  | _, .list q ks n t tight h, hw, nb, st, _ => by
    obtain ⟨K, nb', e, hk, _, hn⟩ := kids_snoc (cx := cx) hw
    simp only [ser, dispatch, serList, e, runKids_snoc]
    refine item_end h hn nb' _ ?_
    rw [(ctx_eq (runKids_items hk _).ctx).2.1]
    rfl
  | _, .quote q ks n h, hw, nb, st, _ => by
    obtain ⟨K, nb', e, hk, hb, hn⟩ := kids_snoc (cx := cx) hw
    simp only [ser, dispatch, e]
    exact blockQuote_end hk (hb rfl).1 (fun s hs => block_end h hn nb' s fun _ => hs) st
  | _, .alert q ks n t title h, hw, nb, st, _ => by
    obtain ⟨K, nb', e, hk, hb, hn⟩ := kids_snoc (cx := cx) hw
    simp only [ser, dispatch, e, serAlert]
    exact blockQuote_end hk (hb rfl).1 (fun s hs => block_end h hn nb' s fun _ => hs) _
  | _, .descriptions q ks q' ks' q'' ks'' n h, hw, nb, st, _ => by
    obtain ⟨K, b1, e1, _, _, hw1⟩ := kids_snoc (cx := cx) hw
    rw [ser, dispatch, e1]
    obtain ⟨s, h1⟩ := descriptions_snoc ⟨.mk .descriptionItem q' (ks' ++ [.mk .descriptionDetails q'' (ks'' ++ [n])]),
      ser cx (.mk .descriptionItem q' (ks' ++ [.mk .descriptionDetails q'' (ks'' ++ [n])])) b1⟩ K st
    rw [h1]
    obtain ⟨K', b2, e2, _, _, hw2⟩ := kids_snoc (cx := cx) hw1
    simp only
    rw [ser, dispatch, e2, runKids_snoc]
    obtain ⟨K'', b3, e3, _, _, hw3⟩ := kids_snoc (cx := cx) hw2
    simp only
    rw [ser, dispatch, e3]
    obtain ⟨bq, first, s', h2⟩ := details_snoc cx ⟨n, ser cx n b3⟩ K'' (runKids K' s)
    rw [h2]
    have key : n.value ≠ .paragraph → ∀ s : St, OneBreak (ser cx n b3 s).output := fun hv s =>
      block_end h hw3 b3 s fun h' => absurd h' hv
    unfold serDetailsChild
    cases h with
    | paragraph q ks h =>
      simp only [Node.value, Node.children]
      split <;> exact detailsParagraph_end h _ _ _
    | code q ks info literal h =>
      simp only [Node.value]
      split <;> exact codeBlockWithIndent_end h _ _ _ _
    | _ =>
      have := key (by simp [Node.value])
      simp only [Node.value, withIndent4]
      split <;> exact this _

theorem item_end {cx : Cx} : ∀ {n : Node}, ItemEnd cx n → wellPlaced n = true → ∀ (nb : Bool) (st : St),
    st.listType.isSome = true → OneBreak (ser cx n nb st).output
  | _, .mk v q ks n hv h, hw, nb, st, hl => by
    obtain ⟨K, nb', e, hk, hb, hn⟩ := kids_snoc (cx := cx) hw
    have hv' : isListValue v = false := by rcases hv with rfl | ⟨s, rfl⟩ <;> rfl
    have key : ∀ task, OneBreak (serItem cx task (K ++ [⟨n, ser cx n nb'⟩]) st).output := by
      intro task
      rw [serItem]
      simp only [List.getLast?_append, List.getLast?_singleton, Option.some_or, Option.any_some]
      generalize itemIndent cx _ = indent
      generalize hs : ({ (({ st with listItemIndex := st.listItemIndex + 1 } : St).push _) with listItemIndent := indent } : St) = s
      have hsl : s.listType = st.listType := by rw [← hs]; rfl
      obtain ⟨p, s', h1, h2⟩ := itemChildren_snoc (cx := cx) indent ⟨n, ser cx n nb'⟩ K none s hk (hb hv').1
      rw [h1]
      exact inItem_end h hn nb' indent p s' (by rw [h2, hsl, hl]) _
    rcases hv with rfl | ⟨s, rfl⟩
    · simp only [ser, dispatch, e]
      exact key _
    · simp only [ser, dispatch, e]
      exact key _

theorem inItem_end {cx : Cx} : ∀ {n : Node}, InItemEnd cx n → wellPlaced n = true → ∀ (nb : Bool) (indent : List Char)
    (p : Option Node) (st : St), st.listType.isSome = true → ∀ i : List Char,
    OneBreak (if endsLine n = true then
      ({ serItemChild cx indent p ⟨n, ser cx n nb⟩ st with listItemIndent := i } : St)
      else ({ serItemChild cx indent p ⟨n, ser cx n nb⟩ st with listItemIndent := i } : St).push ['\n']).output
  | _, .paragraph q ks h ha, _, nb, indent, p, st, hl, i => by
    rw [if_neg (by simp [endsLine, Node.isList, Node.isCodeBlock, Node.isQuote, Node.value])]
    simp only [serItemChild, Node.value, ser, dispatch, serKids_nodes, St.push]
    cases p with
    | none =>
      obtain ⟨c, h1, h2⟩ := itemParagraph_end h ha st hl
      exact oneBreak_of h1 h2
    | some p =>
      simp only
      obtain ⟨c, h1, h2⟩ := itemParagraph_end h ha (st.push ((if p.isCodeBlock || p.isList then ['\n'] else ['\n', '\n']) ++
        (if st.inBlockQuote then ['>', ' '] else []) ++ indent)) hl
      exact oneBreak_of h1 h2
  | n, .block _ hn h, hw, nb, indent, p, st, hl, i => by
    rw [if_pos (by simp only [endsLine, Bool.or_eq_true]; rcases hn with h | h | h <;> simp [h])]
    have key : n.value ≠ .paragraph → ∀ s : St, OneBreak (ser cx n nb s).output := fun hv s =>
      block_end h hw nb s fun h' => absurd h' hv
    cases h with
    | paragraph q ks h => simp [Node.isList, Node.isCodeBlock, Node.isQuote, Node.value] at hn
    | heading q ks l h1 h2 h3 => simp [Node.isList, Node.isCodeBlock, Node.isQuote, Node.value] at hn
    | rule q ks c h1 h2 => simp [Node.isList, Node.isCodeBlock, Node.isQuote, Node.value] at hn
    | html q ks l h => simp [Node.isList, Node.isCodeBlock, Node.isQuote, Node.value] at hn
    | table q ks as h => simp [Node.isList, Node.isCodeBlock, Node.isQuote, Node.value] at hn
    | descriptions q ks q' ks' q'' ks'' n h => simp [Node.isList, Node.isCodeBlock, Node.isQuote, Node.value] at hn
    | code q ks info literal h => exact codeBlockIndented_end h _ _ _ _
    | _ => exact key (by simp [Node.value]) _
end

end Hongdown
