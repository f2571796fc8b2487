import Verif.Lemmas.LineEnd
import Verif.Lemmas.Description

/-!
# Trees with tidy lines
-/

namespace Hongdown
open Model Spec

theorem Spec.TidyOptions.noNl {o : Options} (h : TidyOptions o) : NoNl o where
  bullet := h.bullet
  odd := h.odd
  even := h.even
  fence := by intro e; have := h.fence; rw [e] at this; revert this; decide
  style := h.style.2
  language := h.language.2

/-- The state inside (`q`) or outside of quotes. -/
structure InvT (q : Bool) (st : St) : Prop where
  quote : st.inBlockQuote = q
  pfx : '\n' ∉ st.blockquotePrefix
  outer : '\n' ∉ st.blockquoteOuterIndent
  indent : '\n' ∉ st.listItemIndent
  mark : q = true → ∃ u, st.blockquotePrefix = u ++ ['>', ' ']

theorem InvT.of_ctx {q : Bool} {a b : St} (h : InvT q a) (e : ctx b = ctx a) : InvT q b := by
  obtain ⟨_, _, _, h4, h5, _, _, _, h9, h10, _⟩ := ctx_eq e
  exact ⟨h4.trans h.quote, h5 ▸ h.pfx, h10 ▸ h.outer, h9 ▸ h.indent, fun hq => h5 ▸ h.mark hq⟩

theorem InvT.act {cx : Cx} {q : Bool} {k : Kid} (hk : KidOk cx k) {st : St} (h : InvT q st) : InvT q (k.act st) := by
  refine InvT.of_ctx (a := kidStart k st) ?_ (hk st).ctx
  rw [kidStart]
  split
  · exact ⟨h.quote, h.pfx, h.outer, h.indent, h.mark⟩
  · exact h

/-- What a block writes; an item after another may begin with a blank line. -/
def WritesT (h : Bool) (n : Node) (st : St) (t : List Char) : Prop :=
  Th h t ∨ (isItemLike n = true ∧ 0 < st.listItemIndex ∧ ∃ u, t = '\n' :: u ∧ Th h u)

def KidT (cx : Cx) (h q i : Bool) (k : Kid) : Prop :=
  KidOk cx k ∧ TidyNode cx h q i k.node ∧
    ∀ st, InvT q st → ∃ t, (k.act st).output = st.output ++ t ∧ WritesT h k.node st t

theorem KidT.block {cx : Cx} {h q i : Bool} {k : Kid} (hk : KidT cx h q i k) (hb : isItemLike k.node = false)
    (st : St) (hs : InvT q st) : ∃ t, (k.act st).output = st.output ++ t ∧ Th h t := by
  obtain ⟨t, e, ht⟩ := hk.2.2 st hs
  rcases ht with ht | ⟨h1, _⟩
  · exact ⟨t, e, ht⟩
  · rw [hb] at h1; cases h1

theorem InvT.quotePrefix {q : Bool} {st : St} (h : InvT q st) :
    '\n' ∉ Model.quotePrefix st ∧ (Model.quotePrefix st = [] ∨ trimEnd (Model.quotePrefix st) ≠ []) := by
  rw [Model.quotePrefix, h.quote]
  cases q with
  | false => simp
  | true =>
    obtain ⟨u, hu⟩ := h.mark rfl
    refine ⟨by simp [h.outer, h.pfx], .inr ?_⟩
    simp only [if_true]
    rw [hu, ← List.append_assoc, trimEnd_quote]
    simp

theorem InvT.continuation {cx : Cx} {q : Bool} {st : St} (h : InvT q st) : '\n' ∉ paragraphContinuation cx st := by
  rw [paragraphContinuation]
  have hb : '\n' ∉ (if st.inDescriptionDetails = true ∧ 0 < st.listDepth - st.blockquoteEntryListDepth then
      spaces 5 ++ spaces (1 + cx.opts.trailingSpaces) ++ spaces (4 * (st.listDepth - st.blockquoteEntryListDepth - 1))
      else spaces (4 * (st.listDepth - st.blockquoteEntryListDepth))) := by
    split <;> simp [spaces]
  split
  · simp only [List.mem_append, not_or]
    exact ⟨⟨h.outer, h.pfx⟩, hb⟩
  · exact hb

theorem paragraph_th {cx : Cx} {h q : Bool} (p : Pos) (cs : List Node) (st : St) (ha : NoAbbreviation cx p)
    (ht : TidyText h (collectInlines cx cs).1) (hs : InvT q st) :
    ∃ t, (serParagraph cx p cs st).output = st.output ++ t ∧ Th h t := by
  rw [serParagraph, abbreviation_none ha]
  simp only
  obtain ⟨e0, e⟩ := addReferences_keep st (collectInlines cx cs).2
  have hs' := hs.of_ctx e
  split
  · exact ⟨_, by rw [St.push]; simp only [e0]; rfl, wrapTextFirstLine_th _ _ hs'.continuation ht⟩
  · exact ⟨_, by rw [St.push]; simp only [e0]; rfl, (wrapText_th _ _ hs'.quotePrefix.1 ht hs'.quotePrefix.2).ended⟩

theorem not_nl_of_ws {c : Char} (h : isWs c = false) : c ≠ '\n' := by rintro rfl; revert h; decide

theorem headingText_th {cx : Cx} {h : Bool} (level : Nat) {text : List Char} (hn : '\n' ∉ text) (hv : EndsVisible text) :
    Th h (headingText cx level text) := by
  have under : ∀ (n : Nat) (c : Char), isWs c = false → TidyLines h (List.replicate n c ++ ['\n']) := by
    intro n c hc
    cases n with
    | zero => exact tidyLines_nl (tidyLines_nil h) (tidyLines_nil h)
    | succ n =>
      refine (th_ended ?_ ⟨List.replicate n c, c, by rw [List.replicate_succ'], hc⟩).tidy
      simp only [List.mem_replicate, not_and]
      exact fun _ e => not_nl_of_ws hc e.symm
  rw [headingText]
  split
  · simpa using (th_line hn (.inl hv)).nl (under (cx.width text) '=' (by decide))
  · split
    · simpa using (th_line hn (.inl hv)).nl (under (cx.width text) '-' (by decide))
    · refine th_ended ?_ (hv.left _)
      simp [hn]

theorem heading_th {cx : Cx} {h : Bool} (ho : TidyOptions cx.opts) (level : Nat) (cs : List Node) (st : St)
    (hn : '\n' ∉ (collectTexts cx cs).1) (hv : EndsVisible (collectTexts cx cs).1) :
    ∃ t, (serHeading cx level cs st).output = st.output ++ t ∧ Th h t := by
  rw [serHeading, ho.sentence]
  simp only [Bool.false_eq_true, if_false]
  obtain ⟨e0, _⟩ := addReferences_keep st (collectTexts cx cs).2
  exact ⟨_, by rw [St.push]; simp only [e0]; rfl, headingText_th level hn hv⟩

theorem outputInfo_ends {cx : Cx} (ho : TidyOptions cx.opts) (info : List Char) :
    outputInfo cx info = [] ∨ EndsVisible (outputInfo cx info) := by
  rw [outputInfo]
  split
  · exact ho.language.1
  · rw [parseCodeInfo]
    split
    · exact .inl rfl
    · simp only
      cases hg : (trim info).getLast? with
      | none => exact .inl (by simpa using hg)
      | some c => exact .inr (endsVisible_iff.mpr ⟨c, hg, trim_getLast info c hg⟩)

theorem fence_ends {n : Nat} {c : Char} (hc : isWs c = false) (hn : 0 < n) :
    '\n' ∉ List.replicate n c ∧ EndsVisible (List.replicate n c) := by
  constructor
  · simp only [List.mem_replicate, not_and]
    exact fun _ e => not_nl_of_ws hc e.symm
  · cases n with
    | zero => cases hn
    | succ n => exact ⟨List.replicate n c, c, by rw [List.replicate_succ'], hc⟩

theorem openFence_th {cx : Cx} {h : Bool} (ho : TidyOptions cx.opts) {fence info : List Char}
    (hf : '\n' ∉ fence ∧ EndsVisible fence) (hi : '\n' ∉ info) :
    ∃ l, openFence cx fence info = l ++ ['\n'] ∧ Th h (l ++ ['\n']) := by
  have hn := outputInfo_nl ho.noNl hi
  rw [openFence]
  refine ⟨_, rfl, ?_⟩
  split
  · rw [List.append_nil]
    exact th_ended hf.1 hf.2
  · next hne =>
    have hv := (outputInfo_ends ho info).resolve_left hne
    refine th_ended ?_ ((hv.left _).left _)
    split <;> simp [hf.1, hn]

theorem fenceLength_pos (m : Nat) (c : Char) (s : List Char) : 0 < fenceLength m c s := by
  rw [fenceLength]; omega

theorem code_th {cx : Cx} {h q : Bool} (ho : TidyOptions cx.opts) (info content : List Char)
    (hi : '\n' ∉ info) (hl : ∀ l ∈ lines content, l = [] ∨ EndsVisible l) :
    Th h (codeBlockText cx q info content) := by
  have hf := fence_ends ho.fence (fenceLength_pos cx.opts.minFenceLength cx.opts.fenceChar content)
  rw [codeBlockText]
  generalize List.replicate (fenceLength cx.opts.minFenceLength cx.opts.fenceChar content) cx.opts.fenceChar = fence at hf ⊢
  obtain ⟨l, e, h1⟩ := openFence_th (h := h) ho hf hi
  have hq : '\n' ∉ (if q = true then ['>', ' '] else []) := by split <;> simp
  generalize hqe : (if q = true then ['>', ' '] else []) = qq at hq
  have h2 : Th h ((qq ++ l) ++ ['\n']) := by simpa using h1.left hq
  have h3 := th_lines (f := codeLine q) (lines content) h2 fun x hx => by
    rw [codeLine]
    refine ⟨_, rfl, ?_, ?_⟩
    · have := lines_no_nl _ x hx
      split
      · split <;> simp [this]
      · simpa using this
    · rcases hl x hx with rfl | hv
      · split
        · exact .inr (.inl ⟨[], '>', rfl, by decide⟩)
        · exact .inl rfl
      · exact .inr (.inl (hv.left _))
  have h4 : Th h (qq ++ fence ++ ['\n']) := th_ended (by simp [hq, hf.1]) (hf.2.left _)
  have := h3.append h4
  rw [e]
  simpa using this

theorem codeLineIndented_tidy {h q : Bool} {indent line : List Char} (hn : '\n' ∉ indent) (hx : '\n' ∉ line)
    (hl : (line = [] ∧ q = false) ∨ EndsVisible line) :
    ∃ l, codeLineIndented q indent line = l ++ ['\n'] ∧ '\n' ∉ l ∧ TidyLine h l := by
  rw [codeLineIndented]
  refine ⟨_, rfl, ?_, ?_⟩
  · split <;> split <;> simp [hn, hx]
  · rcases hl with ⟨rfl, rfl⟩ | hv
    · exact .inl rfl
    · have : line ≠ [] := by rintro rfl; obtain ⟨u, c, e, _⟩ := hv; simp at e
      rw [if_neg this]
      exact .inr (.inl ((hv.left _).left _))

theorem codeIndented_th {cx : Cx} {h q : Bool} (ho : TidyOptions cx.opts) (info content indent : List Char)
    (hi : '\n' ∉ info) (hn : '\n' ∉ indent) (hl : ∀ l ∈ lines content, (l = [] ∧ q = false) ∨ EndsVisible l) :
    Th h (codeBlockIndentedText cx q info content indent) := by
  have hf := fence_ends ho.fence (fenceLength_pos cx.opts.minFenceLength cx.opts.fenceChar content)
  rw [codeBlockIndentedText]
  generalize List.replicate (fenceLength cx.opts.minFenceLength cx.opts.fenceChar content) cx.opts.fenceChar = fence at hf ⊢
  obtain ⟨l, e, h1⟩ := openFence_th (h := h) ho hf hi
  have hq : '\n' ∉ (if q = true then ['>', ' '] else []) := by split <;> simp
  generalize hqe : (if q = true then ['>', ' '] else []) = qq at hq
  have h3 := th_lines (f := codeLineIndented q indent) (lines content) h1 fun x hx =>
    codeLineIndented_tidy hn (lines_no_nl _ x hx) (hl x hx)
  have h4 : Th h (qq ++ indent ++ fence ++ ['\n']) := th_ended (by simp [hq, hn, hf.1]) (hf.2.left _)
  have := h3.append h4
  rw [e]
  simpa using this

theorem codeWith_th {cx : Cx} {h : Bool} (ho : TidyOptions cx.opts) (info content indent : List Char)
    (hi : '\n' ∉ info) (hn : '\n' ∉ indent) (hl : ∀ l ∈ lines content, l = [] ∨ EndsVisible l) :
    Th h (codeBlockWithIndentText cx info content indent) := by
  rw [codeBlockWithIndentText]
  generalize hfe : (if containsSub (List.replicate cx.opts.minFenceLength cx.opts.fenceChar) content then
    cx.opts.fenceChar :: List.replicate cx.opts.minFenceLength cx.opts.fenceChar else
    List.replicate cx.opts.minFenceLength cx.opts.fenceChar) = fence
  have hf : '\n' ∉ fence ∧ EndsVisible fence := by
    rw [← hfe]
    split
    · exact fence_ends (n := cx.opts.minFenceLength + 1) ho.fence (by omega)
    · exact fence_ends ho.fence ho.fenceLength
  obtain ⟨l, e, h1⟩ := openFence_th (h := h) ho hf hi
  have h3 := th_lines (f := codeLineIndented false indent) (lines content) h1 fun x hx =>
    codeLineIndented_tidy hn (lines_no_nl _ x hx) ((hl x hx).imp (fun h => ⟨h, rfl⟩) id)
  have h4 : Th h (indent ++ fence ++ ['\n']) := th_ended (by simp [hn, hf.1]) (hf.2.left _)
  rw [e]
  split
  · simpa using h3.nl h4.tidy
  · simpa using h3.append h4

theorem codeWarning_output (st : St) (m : Option (List Char)) : (addCodeWarning st m).output = st.output := by
  rw [addCodeWarning.eq_def]; split <;> rfl

theorem cells_end {ps : List (List Char)} (h : ∀ p ∈ ps, EndsVisible p) : EndsVisible (['|'] ++ ps.flatten) := by
  rcases List.eq_nil_or_concat ps with rfl | ⟨i, p, rfl⟩
  · exact ⟨[], '|', rfl, by decide⟩
  · rw [List.concat_eq_append] at h ⊢
    rw [List.flatten_append]
    have := ((h p (by simp)).left i.flatten).left ['|']
    simpa using this

theorem rowText_th {h : Bool} (w : List Char → Nat) (widths : List Nat) (aligns : List Align)
    (cells : List (List Char)) (hc : ∀ c ∈ cells, '\n' ∉ c) {q : List Char} (hq : '\n' ∉ q) :
    Th h (q ++ rowText w widths aligns cells) := by
  refine Th.left ?_ hq
  rw [rowText]
  refine th_ended ?_ (cells_end ?_)
  · simp only [List.mem_append, List.mem_flatten, not_or, List.mem_mapIdx, not_exists, not_and]
    refine ⟨by decide, ?_⟩
    rintro x ⟨i, hi, rfl⟩ hx
    have hc := hc cells[i] (List.getElem_mem hi)
    simp only [List.mem_append] at hx
    rcases hx with (hx | hx) | hx
    · exact absurd hx (by decide)
    · revert hx
      cases aligns.getD i .none <;> simp [formatCell, hc, spaces]
    · exact absurd hx (by decide)
  · intro x hx
    simp only [List.mem_mapIdx] at hx
    obtain ⟨i, hi, rfl⟩ := hx
    exact ⟨[' '] ++ _ ++ [' '], '|', by simp only [List.append_assoc]; rfl, by decide⟩

theorem delimText_th {h : Bool} (widths : List Nat) (aligns : List Align) {q : List Char} (hq : '\n' ∉ q) :
    Th h (q ++ delimText widths aligns) := by
  refine Th.left ?_ hq
  rw [delimText]
  refine th_ended ?_ (cells_end ?_)
  · simp only [List.mem_append, List.mem_flatten, not_or, List.mem_mapIdx, not_exists, not_and]
    refine ⟨by decide, ?_⟩
    rintro x ⟨i, hi, rfl⟩ hx
    simp only [List.mem_append] at hx
    rcases hx with (hx | hx) | hx
    · exact absurd hx (by decide)
    · revert hx
      rw [delimCell.eq_def]
      split <;> simp
    · exact absurd hx (by decide)
  · intro x hx
    simp only [List.mem_mapIdx] at hx
    obtain ⟨i, hi, rfl⟩ := hx
    exact ⟨[' '] ++ _ ++ [' '], '|', by simp only [List.append_assoc]; rfl, by decide⟩

theorem th_flatMap {h : Bool} {α : Type} {f : α → List Char} : ∀ (l : List α) {a : List Char}, Th h a →
    (∀ x ∈ l, Th h (f x)) → Th h (a ++ l.flatMap f)
  | [], a, ha, _ => by simpa using ha
  | x :: l, a, ha, hf => by
    rw [List.flatMap_cons, ← List.append_assoc]
    exact th_flatMap l (ha.append (hf x (by simp))) fun y hy => hf y (by simp [hy])

theorem table_th {cx : Cx} {h : Bool} (p : Pos) (aligns : List Align) (rows : List Node) (st : St) (hne : rows ≠ [])
    (hc : ∀ row ∈ rows, ∀ cell ∈ row.children, '\n' ∉ (collectInlines cx cell.children).1) :
    ∃ t, (serTable cx p aligns rows st).output = st.output ++ t ∧ Th h t := by
  rw [serTable, if_neg (by simpa using hne)]
  generalize hst : ({ st with warnings := st.warnings ++ tableWarnings cx.sourceLines p aligns.length } : St) = s1
  have e1 : s1.output = st.output := by rw [← hst]
  obtain ⟨e0, e⟩ := addReferences_keep s1
    ((rows.map fun r => r.children.map (cellInline cx)).flatten.flatMap (·.2))
  simp only [St.push]
  refine ⟨_, by simp only [e0, e1]; rfl, ?_⟩
  have hcells : ∀ r ∈ (rows.map fun r => r.children.map (cellInline cx)).map (·.map (·.1)), ∀ c ∈ r, '\n' ∉ c := by
    intro r hr c hcm
    simp only [List.map_map, List.mem_map, Function.comp] at hr
    obtain ⟨row, hrow, rfl⟩ := hr
    simp only [List.mem_map] at hcm
    obtain ⟨cell, hcell, rfl⟩ := hcm
    exact fun hh => hc row hrow cell hcell (mem_escapeTableCell (by decide) (by decide) _ hh)
  have hlen : (rows.map fun r => r.children.map (cellInline cx)).map (·.map (·.1)) ≠ [] := by simpa using hne
  rw [tableText.eq_def]
  generalize (rows.map fun r => r.children.map (cellInline cx)).map (·.map (·.1)) = all at hcells hlen ⊢
  generalize (addReferences s1 _).inBlockQuote = q
  have hq : '\n' ∉ (if q = true then ['>', ' '] else []) := by split <;> simp
  cases all with
  | nil => exact absurd rfl hlen
  | cons header data =>
    simp only
    generalize (if q = true then ['>', ' '] else []) = qq at hq
    have h1 := rowText_th (h := h) cx.width (colWidths cx.width aligns.length (header :: data)) aligns header
      (hcells header (by simp)) hq
    have h2 := delimText_th (h := h) (colWidths cx.width aligns.length (header :: data)) aligns hq
    have h3 := th_flatMap data (h1.append h2) fun r hr =>
      rowText_th (h := h) cx.width (colWidths cx.width aligns.length (header :: data)) aligns r (hcells r (by simp [hr])) hq
    simpa using h3

theorem break_th {cx : Cx} {h q : Bool} (ho : TidyOptions cx.opts) (st : St) (hs : InvT q st) :
    ∃ t, (serThematicBreak cx st).output = st.output ++ t ∧ Th h t := by
  rw [serThematicBreak]
  refine ⟨_, rfl, th_ended ?_ (ho.style.1.left _)⟩
  have := hs.outer
  split <;> simp [this, ho.style.2, spaces]

/-! ### Containers -/

theorem runKids_th {cx : Cx} {h q i : Bool} : ∀ (kids : List Kid) (st : St) (out u : List Char),
    (∀ k ∈ kids, KidT cx h q i k) → InvT q st → st.output = out ++ u → Th h u →
    ∃ t, (runKids kids st).output = out ++ t ∧ Th h t
  | [], st, out, u, _, _, e, hu => ⟨u, e, hu⟩
  | k :: ks, st, out, u, hk, hs, e, hu => by
    obtain ⟨t, e1, ht⟩ := (hk k (by simp)).2.2 st hs
    have h2 : Th h (u ++ t) := by
      rcases ht with ht | ⟨_, _, v, rfl, hv⟩
      · exact hu.append ht
      · exact hu.nl hv.tidy
    exact runKids_th ks (k.act st) out (u ++ t) (fun x hx => hk x (by simp [hx])) (hs.act (hk k (by simp)).1)
      (by rw [e1, e, List.append_assoc]) h2

theorem runKids_first {cx : Cx} {h q i : Bool} {kids : List Kid} (hk : ∀ k ∈ kids, KidT cx h q i k) (hne : kids ≠ [])
    (st : St) (hs : InvT q st) (h0 : Blocks kids ∨ st.listItemIndex = 0) :
    ∃ t, (runKids kids st).output = st.output ++ t ∧ Th h t := by
  cases kids with
  | nil => exact absurd rfl hne
  | cons k ks =>
    obtain ⟨t, e1, ht⟩ := (hk k (by simp)).2.2 st hs
    have ht : Th h t := by
      rcases ht with ht | ⟨h1, h2, _⟩
      · exact ht
      · rcases h0 with h0 | h0
        · rw [h0 k (by simp)] at h1; cases h1
        · omega
    exact runKids_th ks (k.act st) st.output t (fun x hx => hk x (by simp [hx])) (hs.act (hk k (by simp)).1) e1 ht

theorem list_th {cx : Cx} {h q i : Bool} {kids : List Kid} (hk : ∀ k ∈ kids, KidT cx h q i k) (hne : kids ≠ [])
    (type : ListType) (tight : Bool) (st : St) (hs : InvT q st) :
    ∃ t, (serList type tight kids st).output = st.output ++ t ∧ Th h t := by
  rw [serList]
  exact runKids_first hk hne _ ⟨hs.quote, hs.pfx, hs.outer, hs.indent, hs.mark⟩ (.inr rfl)

theorem itemLead_split {cx : Cx} (ho : NoNl cx.opts) (task : Option (Option Char)) (st : St) :
    ∃ b m, itemLead cx task st = b ++ m ∧ '\n' ∉ m ∧ (b = [] ∨ b = ['\n'] ∧ 1 < st.listItemIndex) := by
  have h1 := itemMarker_nl ho st
  have h2 : '\n' ∉ taskBox task := by
    rcases task with _ | _ | _ <;> simp [taskBox]
  rw [itemLead]
  refine ⟨_, _, by simp only [List.append_assoc]; rfl, ?_, ?_⟩
  · simp only [List.mem_append, not_or]
    refine ⟨?_, ?_, ?_, h1, h2⟩
    · split <;> simp
    · split <;> simp [spaces]
    · split <;> simp [spaces]
  · split
    · next h => exact .inr ⟨rfl, by simp at h; exact h.2⟩
    · exact .inl rfl

theorem itemIndent_nl (cx : Cx) (st : St) : '\n' ∉ itemIndent cx st := by
  rw [itemIndent]
  simp only
  split
  · simp [spaces]
  · split <;> simp [spaces]

theorem itemChild_th {cx : Cx} {h q : Bool} (ho : TidyOptions cx.opts) {indent : List Char} (hn : '\n' ∉ indent) {k : Kid}
    (hk : KidT cx h q true k) (hb : isItemLike k.node = false) (prev : Option Node) (st : St) (hs : InvT q st) :
    ∃ b t, (serItemChild cx indent prev k st).output = st.output ++ (b ++ t) ∧ Th h t ∧
      (b = [] ∨ ∃ b', b = '\n' :: b' ∧ ∀ c ∈ b', c = '\n') ∧ (prev = none → beginsLine k.node = false → b = []) := by
  have hq : '\n' ∉ (if st.inBlockQuote = true then ['>', ' '] else []) := by split <;> simp
  have hpush : ∀ w, InvT q (st.push w) := fun w => ⟨hs.quote, hs.pfx, hs.outer, hs.indent, hs.mark⟩
  have act : ∀ w, ∃ t, (k.act (st.push w)).output = st.output ++ w ++ t ∧ Th h t := fun w =>
    hk.block hb (st.push w) (hpush w)
  have hty := hk.2.1
  rw [serItemChild.eq_def]
  simp only
  split
  · next hv =>
    split
    · obtain ⟨t, e, ht⟩ := act ['\n', '\n']
      exact ⟨['\n', '\n'], t, by rw [e]; simp, ht, .inr ⟨['\n'], rfl, by simp⟩, fun _ hn => by simp [beginsLine, hv] at hn⟩
    · obtain ⟨t, e, ht⟩ := act ['\n']
      exact ⟨['\n'], t, by rw [e]; simp, ht, .inr ⟨[], rfl, by simp⟩, fun _ hn => by simp [beginsLine, hv] at hn⟩
  · cases prev with
    | none =>
      obtain ⟨t, e, ht⟩ := act []
      exact ⟨[], t, by simpa [St.push] using e, ht, .inl rfl, fun _ _ => rfl⟩
    | some p =>
      simp only
      split
      · obtain ⟨t, e, ht⟩ := act (['\n'] ++ (if st.inBlockQuote = true then ['>', ' '] else []) ++ indent)
        exact ⟨['\n'], _, by rw [e]; simp only [List.append_assoc], (ht.left hn).left hq, .inr ⟨[], rfl, by simp⟩,
          fun h => by cases h⟩
      · obtain ⟨t, e, ht⟩ := act (['\n', '\n'] ++ (if st.inBlockQuote = true then ['>', ' '] else []) ++ indent)
        exact ⟨['\n', '\n'], _, by rw [e]; simp only [List.append_assoc], (ht.left hn).left hq, .inr ⟨['\n'], rfl, by simp⟩,
          fun h => by cases h⟩
  · next info literal hv =>
    obtain ⟨⟨v, p, cs⟩, act'⟩ := k
    simp only [Node.value] at hv
    subst hv
    simp only [TidyNode] at hty
    rw [serCodeBlockIndented]
    have hc := codeIndented_th (h := h) (q := q) ho info (codeContent cx info literal).1 indent hty.1 hn
      (fun l hl => by
        rcases hty.2 l hl with ⟨h1, h2⟩ | h1
        · exact .inl ⟨h1, by simpa using h2⟩
        · exact .inr h1)
    refine ⟨['\n', '\n'], _, ?_, (hc.left hn).left hq, .inr ⟨['\n'], rfl, by simp⟩, fun _ hn => by simp [beginsLine, Node.value] at hn⟩
    simp only [St.push, codeWarning_output, hs.quote, List.append_assoc]
  · next hv =>
    split
    · obtain ⟨t, e, ht⟩ := act (['\n', '\n'] ++ (if st.inBlockQuote = true then ['>', ' '] else []))
      exact ⟨['\n', '\n'], _, by rw [e]; simp only [List.append_assoc], ht.left hq, .inr ⟨['\n'], rfl, by simp⟩,
        fun _ hn => by simp [beginsLine, hv] at hn⟩
    · obtain ⟨t, e, ht⟩ := act (['\n'] ++ (if st.inBlockQuote = true then ['>', ' '] else []))
      exact ⟨['\n'], _, by rw [e]; simp only [List.append_assoc], ht.left hq, .inr ⟨[], rfl, by simp⟩,
        fun _ hn => by simp [beginsLine, hv] at hn⟩
  · next hv =>
    split
    · obtain ⟨t, e, ht⟩ := act (['\n', '\n'] ++ (if st.inBlockQuote = true then ['>', ' '] else []))
      exact ⟨['\n', '\n'], _, by rw [e]; simp only [List.append_assoc], ht.left hq, .inr ⟨['\n'], rfl, by simp⟩,
        fun _ hn => by simp [beginsLine, hv] at hn⟩
    · obtain ⟨t, e, ht⟩ := act (['\n'] ++ (if st.inBlockQuote = true then ['>', ' '] else []))
      exact ⟨['\n'], _, by rw [e]; simp only [List.append_assoc], ht.left hq, .inr ⟨[], rfl, by simp⟩,
        fun _ hn => by simp [beginsLine, hv] at hn⟩
  · obtain ⟨t, e, ht⟩ := act []
    exact ⟨[], t, by simpa [St.push] using e, ht, .inl rfl, fun _ _ => rfl⟩

theorem tidyLines_breaks {h : Bool} {a : List Char} : ∀ (b : List Char), TidyLines h a → (∀ c ∈ b, c = '\n') → TidyLines h (b ++ a)
  | [], ha, _ => ha
  | c :: b, ha, hb => by
    rw [hb c (by simp)]
    exact tidyLines_nl (a := []) (tidyLines_nil h) (tidyLines_breaks b ha fun d hd => hb d (by simp [hd]))

theorem itemChildren_th {cx : Cx} {h q : Bool} (ho : TidyOptions cx.opts) {indent : List Char} (hn : '\n' ∉ indent) :
    ∀ (kids : List Kid) (prev : Option Node) (st : St) (out u : List Char),
    (∀ k ∈ kids, KidT cx h q true k) → Blocks kids → InvT q st → st.output = out ++ u →
    (Th h u ∨ u = [] ∧ prev = none ∧ (kids.head?.any fun k => !beginsLine k.node) = true) →
    ∃ t, (serItemChildren cx indent prev kids st).output = out ++ t ∧ Th h t
  | [], prev, st, out, u, _, _, _, e, hu => by
    rcases hu with hu | ⟨_, _, h⟩
    · exact ⟨u, e, hu⟩
    · simp at h
  | k :: ks, prev, st, out, u, hk, hb, hs, e, hu => by
    obtain ⟨b, t, e1, ht, h1, h2⟩ := itemChild_th ho hn (hk k (by simp)) (hb k (by simp)) prev st hs
    rw [serItemChildren]
    refine itemChildren_th ho hn ks (some k.node) _ out (u ++ (b ++ t)) (fun x hx => hk x (by simp [hx]))
      (fun x hx => hb x (by simp [hx])) (hs.of_ctx (serItemChild_ok (hk k (by simp)).1 (hb k (by simp)) indent prev st).ctx)
      (by rw [e1, e, List.append_assoc]) (.inl ?_)
    rcases hu with hu | ⟨rfl, h3, h4⟩
    · rcases h1 with rfl | ⟨b', rfl, hb'⟩
      · exact hu.append ht
      · exact hu.nl (tidyLines_breaks b' ht.tidy hb')
    · rw [h2 h3 (by simpa using h4)]
      exact ht

theorem item_th {cx : Cx} {h q : Bool} (ho : TidyOptions cx.opts) {kids : List Kid} (hk : ∀ k ∈ kids, KidT cx h q true k)
    (hb : Blocks kids) (h1 : (kids.head?.any fun k => !beginsLine k.node) = true) (task : Option (Option Char)) (st : St)
    (hs : InvT q st) : ∃ t, (serItem cx task kids st).output = st.output ++ t ∧
      (Th h t ∨ (0 < st.listItemIndex ∧ ∃ u, t = '\n' :: u ∧ Th h u)) := by
  rw [serItem]
  generalize hst : ({ st with listItemIndex := st.listItemIndex + 1 } : St) = s
  have e : s.output = st.output := by rw [← hst]
  have hi : s.listItemIndex = st.listItemIndex + 1 := by rw [← hst]
  have hs' : InvT q s := by rw [← hst]; exact ⟨hs.quote, hs.pfx, hs.outer, hs.indent, hs.mark⟩
  obtain ⟨b, m, el, hm, hb2⟩ := itemLead_split ho.noNl task s
  have hind := itemIndent_nl cx (s.push (itemLead cx task s))
  generalize itemIndent cx (s.push (itemLead cx task s)) = indent at hind ⊢
  obtain ⟨t, e1, ht⟩ := itemChildren_th ho hind kids none
    { s.push (itemLead cx task s) with listItemIndent := indent } (st.output ++ (b ++ m)) [] hk hb
    ⟨hs'.quote, hs'.pfx, hs'.outer, hind, hs'.mark⟩ (by simp [St.push, el, e]) (.inr ⟨rfl, rfl, h1⟩)
  have key : ∃ t', (if (kids.getLast?.any fun k => endsLine k.node) = true then
      { serItemChildren cx indent none kids { s.push (itemLead cx task s) with listItemIndent := indent } with
        listItemIndent := (s.push (itemLead cx task s)).listItemIndent }
      else ({ serItemChildren cx indent none kids { s.push (itemLead cx task s) with listItemIndent := indent } with
        listItemIndent := (s.push (itemLead cx task s)).listItemIndent } : St).push ['\n']).output =
        st.output ++ (b ++ m) ++ t' ∧ Th h t' := by
    split
    · exact ⟨t, e1, ht⟩
    · exact ⟨t ++ ['\n'], (congrArg (· ++ ['\n']) e1).trans (by simp), ht.ended⟩
  obtain ⟨t', e2, h3⟩ := key
  refine ⟨b ++ (m ++ t'), by rw [e2]; simp, ?_⟩
  rcases hb2 with rfl | ⟨rfl, hidx⟩
  · exact .inl (h3.left hm)
  · exact .inr ⟨by omega, _, rfl, h3.left hm⟩

theorem quoteChildren_th {cx : Cx} {h i : Bool} {sep : List Char} (hsep : Th h sep) : ∀ (kids : List Kid) (st : St),
    (∀ k ∈ kids, KidT cx h true i k) → Blocks kids → InvT true st → kids ≠ [] →
    ∃ t, (serQuoteChildren sep kids st).output = st.output ++ t ∧ Th h t
  | [], _, _, _, _, hne => absurd rfl hne
  | [k], st, hk, hb, hs, _ => by
    rw [serQuoteChildren]
    exact (hk k (by simp)).block (hb k (by simp)) st hs
  | k :: k' :: ks, st, hk, hb, hs, _ => by
    obtain ⟨t, e, ht⟩ := (hk k (by simp)).block (hb k (by simp)) st hs
    have hs' := hs.act (hk k (by simp)).1
    obtain ⟨t', e', ht'⟩ := quoteChildren_th hsep (k' :: ks) ((k.act st).push sep) (fun x hx => hk x (by simp [hx]))
      (fun x hx => hb x (by simp [hx])) ⟨hs'.quote, hs'.pfx, hs'.outer, hs'.indent, hs'.mark⟩ (by simp)
    refine ⟨t ++ (sep ++ t'), ?_, ht.append (hsep.append ht')⟩
    rw [serQuoteChildren]
    · rw [e', St.push, e]; simp
    · simp

theorem InvT.enter {q : Bool} {st : St} (h : InvT q st) : InvT true (enterQuote st) where
  quote := rfl
  pfx := by simp [enterQuote, h.pfx]
  outer := h.indent
  indent := by simp [enterQuote]
  mark := fun _ => ⟨st.blockquotePrefix, rfl⟩

theorem quote_th {cx : Cx} {h q i : Bool} {kids : List Kid} (hk : ∀ k ∈ kids, KidT cx h true i k) (hb : Blocks kids)
    (hne : kids ≠ []) (st : St) (hs : InvT q st) : ∃ t, (serBlockQuote kids st).output = st.output ++ t ∧ Th h t := by
  rw [serBlockQuote]
  have hsep : Th h (st.listItemIndent ++ st.blockquotePrefix ++ ['>', '\n']) := by
    have : Th h ((st.listItemIndent ++ st.blockquotePrefix ++ ['>']) ++ ['\n']) :=
      th_ended (by simp [hs.indent, hs.pfx]) ⟨_, '>', rfl, by decide⟩
    simpa using this
  exact quoteChildren_th hsep kids (enterQuote st) hk hb hs.enter hne

theorem alertName_nl (type : AlertType) : '\n' ∉ alertName type := by cases type <;> decide

theorem alert_th {cx : Cx} {h q i : Bool} {kids : List Kid} (hk : ∀ k ∈ kids, KidT cx h true i k) (hb : Blocks kids)
    (type : AlertType) (p : Pos) (st : St) (hs : InvT q st) :
    ∃ t, (serAlert type p kids st).output = st.output ++ t ∧ Th h t := by
  rw [serAlert]
  have hlead : '\n' ∉ st.listItemIndent ++ st.blockquotePrefix := by simp [hs.indent, hs.pfx]
  generalize st.listItemIndent ++ st.blockquotePrefix = lead at hlead
  have h1 : Th h (lead ++ ['>', ' ', '[', '!'] ++ alertName type ++ [']', '\n']) := by
    have : Th h ((lead ++ ['>', ' ', '[', '!'] ++ alertName type ++ [']']) ++ ['\n']) :=
      th_ended (by simp [hlead, alertName_nl]) ⟨_, ']', rfl, by decide⟩
    simpa using this
  have h2 : Th h (lead ++ ['>', '\n']) := by
    have : Th h ((lead ++ ['>']) ++ ['\n']) := th_ended (by simp [hlead]) ⟨_, '>', rfl, by decide⟩
    simpa using this
  generalize lead ++ ['>', ' ', '[', '!'] ++ alertName type ++ [']', '\n'] = first at h1
  generalize lead ++ ['>', '\n'] = blank at h2
  have key : ∀ (u : List Char), Th h u → ∃ t, (serBlockQuote kids (st.push u)).output = st.output ++ t ∧ Th h t := by
    intro u hu
    by_cases hne : kids = []
    · subst hne
      exact ⟨u, rfl, hu⟩
    · obtain ⟨t, e, ht⟩ := quote_th hk hb hne (st.push u) ⟨hs.quote, hs.pfx, hs.outer, hs.indent, hs.mark⟩
      exact ⟨u ++ t, by rw [e]; simp [St.push], hu.append ht⟩
  split
  · have := key (first ++ blank) (h1.append h2)
    simpa [St.push] using this
  · exact key first h1

/-! ### Descriptions -/

theorem detailsParagraph_th {cx : Cx} {h : Bool} {bq lead : List Char} (hb : '\n' ∉ bq) (hl : '\n' ∉ lead) (cs : List Node) (st : St)
    (ht : TidyText h (collectInlines cx cs).1) :
    ∃ t, (serDetailsParagraph cx bq lead cs st).output = st.output ++ t ∧ Th h t := by
  rw [serDetailsParagraph]
  obtain ⟨e0, _⟩ := addReferences_keep st (collectInlines cx cs).2
  refine ⟨_, by rw [St.push]; simp only [e0]; rfl, ?_⟩
  have := ((wrapTextFirstLine_th cx.width (pfx := bq ++ spaces 4) cx.opts.lineWidth (by simp [hb, spaces]) ht).left hl).left hb
  simpa using this.ended

theorem InvT.withIndent {q : Bool} {st : St} (h : InvT q st) : InvT q { st with listItemIndent := spaces 4 } :=
  ⟨h.quote, h.pfx, h.outer, spaces_no_nl 4, h.mark⟩

theorem detailsChild_th {cx : Cx} {h q i : Bool} (ho : TidyOptions cx.opts) {bq : List Char} (hbq : '\n' ∉ bq) (first : Bool) {k : Kid}
    (hk : KidT cx h q i k) (hb : isItemLike k.node = false) (hf : first = true → isCode k.node = false) (st : St) (hs : InvT q st) :
    ∃ b t, (serDetailsChild cx bq first k st).output = st.output ++ (b ++ t) ∧ Th h t ∧
      (b = if first then [] else ['\n']) := by
  have hpush : ∀ w, InvT q (st.push w) := fun w => ⟨hs.quote, hs.pfx, hs.outer, hs.indent, hs.mark⟩
  have act : ∀ w, ∃ t, (k.act (st.push w)).output = st.output ++ w ++ t ∧ Th h t := fun w =>
    hk.block hb (st.push w) (hpush w)
  have act4 : ∀ w, ∃ t, (withIndent4 k (st.push w)).output = st.output ++ w ++ t ∧ Th h t := fun w =>
    hk.block hb _ (hpush w).withIndent
  have hty := hk.2.1
  cases first with
  | true =>
    simp only [serDetailsChild, if_true]
    have hcolon : Th h (bq ++ [':', '\n']) := by
      have : Th h ((bq ++ [':']) ++ ['\n']) := th_ended (by simp [hbq]) ⟨_, ':', rfl, by decide⟩
      simpa using this
    split
    · next hv =>
      obtain ⟨⟨v, p, cs⟩, act'⟩ := k
      simp only [Node.value] at hv
      subst hv
      simp only [TidyNode] at hty
      obtain ⟨t, e, ht⟩ := detailsParagraph_th (lead := [':', ' ', ' ', ' ']) hbq (by decide) cs st hty.2.1
      exact ⟨[], t, e, ht, rfl⟩
    · next hv => have := hf rfl; simp [isCode, hv] at this
    · obtain ⟨t, e, ht⟩ := hk.block hb { st.push (bq ++ [':', ' ', ' ', ' ', ' ']) with descriptionDetailsFirstList := true }
        ⟨hs.quote, hs.pfx, hs.outer, hs.indent, hs.mark⟩
      exact ⟨[], bq ++ [':', ' ', ' ', ' ', ' '] ++ t, e.trans (by simp [St.push]), ht.left (by simp [hbq]), rfl⟩
    · obtain ⟨t, e, ht⟩ := act4 (bq ++ [':', '\n'])
      exact ⟨[], _, by rw [e]; simp only [List.append_assoc, List.nil_append]; rfl, by simpa using hcolon.append ht, rfl⟩
    · obtain ⟨t, e, ht⟩ := act4 (bq ++ [':', '\n'])
      exact ⟨[], _, by rw [e]; simp only [List.append_assoc, List.nil_append]; rfl, by simpa using hcolon.append ht, rfl⟩
    · obtain ⟨t, e, ht⟩ := act (bq ++ [':', ' ', ' ', ' '])
      exact ⟨[], bq ++ [':', ' ', ' ', ' '] ++ t, by rw [e]; simp, ht.left (by simp [hbq]), rfl⟩
  | false =>
    simp only [serDetailsChild, Bool.false_eq_true, if_false]
    refine ⟨['\n'], ?_⟩
    split
    · next hv =>
      obtain ⟨⟨v, p, cs⟩, act'⟩ := k
      simp only [Node.value] at hv
      subst hv
      simp only [TidyNode] at hty
      obtain ⟨t, e, ht⟩ := detailsParagraph_th (lead := spaces 4) hbq (spaces_no_nl 4) cs (st.push ['\n']) hty.2.1
      exact ⟨t, by rw [show (Kid.mk (Node.mk .paragraph p cs) act').node.children = cs from rfl, e]; simp [St.push], ht, rfl⟩
    · next info literal hv =>
      obtain ⟨⟨v, p, cs⟩, act'⟩ := k
      simp only [Node.value] at hv
      subst hv
      simp only [TidyNode] at hty
      rw [serCodeBlockWithIndent]
      have hn : '\n' ∉ bq ++ spaces 4 := by simp [hbq, spaces]
      have hc := codeWith_th (h := h) ho info (codeContent cx info literal).1 (bq ++ spaces 4) hty.1 hn
        (fun l hl => (hty.2 l hl).imp (·.1) id)
      exact ⟨_, by simp only [St.push, codeWarning_output, List.append_assoc]; rfl, by simpa using hc.left hn, rfl⟩
    · obtain ⟨t, e, ht⟩ := act ['\n']
      exact ⟨t, by rw [e]; simp, ht, rfl⟩
    · obtain ⟨t, e, ht⟩ := act4 ['\n']
      exact ⟨t, by rw [e]; simp, ht, rfl⟩
    · obtain ⟨t, e, ht⟩ := act4 ['\n']
      exact ⟨t, by rw [e]; simp, ht, rfl⟩
    · obtain ⟨t, e, ht⟩ := hk.block hb ((st.push ['\n']).push (bq ++ spaces 4)) ⟨hs.quote, hs.pfx, hs.outer, hs.indent, hs.mark⟩
      exact ⟨bq ++ spaces 4 ++ t, by rw [e]; simp [St.push], ht.left (by simp [hbq, spaces]), rfl⟩

theorem detailsRest_th {cx : Cx} {h q i : Bool} (ho : TidyOptions cx.opts) {bq : List Char} (hbq : '\n' ∉ bq) :
    ∀ (kids : List Kid) (st : St) (out u : List Char), (∀ k ∈ kids, KidT cx h q i k) → Blocks kids → InvT q st →
    st.output = out ++ u → Th h u →
    ∃ t, (kids.foldl (fun st k => serDetailsChild cx bq false k st) st).output = out ++ t ∧ Th h t
  | [], st, out, u, _, _, _, e, hu => ⟨u, e, hu⟩
  | k :: ks, st, out, u, hk, hb, hs, e, hu => by
    obtain ⟨b, t, e1, ht, rfl⟩ := detailsChild_th ho hbq false (hk k (by simp)) (hb k (by simp)) (by simp) st hs
    rw [List.foldl_cons]
    exact detailsRest_th ho hbq ks _ out (u ++ '\n' :: t) (fun x hx => hk x (by simp [hx])) (fun x hx => hb x (by simp [hx]))
      (hs.of_ctx (serDetailsChild_ok (hk k (by simp)).1 (hb k (by simp)) bq false st).ctx)
      (by rw [e1, e]; simp) (hu.nl ht.tidy)

theorem details_th {cx : Cx} {h q i : Bool} (ho : TidyOptions cx.opts) {kids : List Kid} (hk : ∀ k ∈ kids, KidT cx h q i k)
    (hb : Blocks kids) (h1 : (kids.head?.any fun k => !isCode k.node) = true) (st : St) (hs : InvT q st) :
    ∃ t, (serDetails cx kids st).output = st.output ++ t ∧ Th h t := by
  cases kids with
  | nil => simp at h1
  | cons k ks =>
    have hs' : InvT q { st with inDescriptionDetails := true } := ⟨hs.quote, hs.pfx, hs.outer, hs.indent, hs.mark⟩
    have hbq := hs.quotePrefix.1
    rw [serDetails]
    simp only
    obtain ⟨b, t, e1, ht, rfl⟩ := detailsChild_th ho hbq true (hk k (by simp)) (hb k (by simp)) (by simpa using h1)
      { st with inDescriptionDetails := true } hs'
    exact detailsRest_th ho hbq ks _ st.output t (fun x hx => hk x (by simp [hx])) (fun x hx => hb x (by simp [hx]))
      (hs'.of_ctx (serDetailsChild_ok (hk k (by simp)).1 (hb k (by simp)) _ true _).ctx) (by simpa using e1) ht

theorem descriptionList_th {cx : Cx} {h q i : Bool} : ∀ (kids : List Kid) (st : St),
    (∀ k ∈ kids, KidT cx h q i k) → Blocks kids → InvT q st → kids ≠ [] →
    ∃ t, (serDescriptionList kids st).output = st.output ++ t ∧ Th h t
  | [], _, _, _, _, hne => absurd rfl hne
  | [k], st, hk, hb, hs, _ => by
    rw [serDescriptionList]
    exact (hk k (by simp)).block (hb k (by simp)) st hs
  | k :: k' :: ks, st, hk, hb, hs, _ => by
    obtain ⟨t, e, ht⟩ := (hk k (by simp)).block (hb k (by simp)) st hs
    have hs' := hs.act (hk k (by simp)).1
    have rest := fun w => descriptionList_th (k' :: ks) ((k.act st).push w) (fun x hx => hk x (by simp [hx]))
      (fun x hx => hb x (by simp [hx])) ⟨hs'.quote, hs'.pfx, hs'.outer, hs'.indent, hs'.mark⟩ (by simp)
    rw [serDescriptionList]
    · rw [hs'.quote]
      cases q with
      | false =>
        simp only [Bool.false_eq_true, if_false]
        obtain ⟨t', e', ht'⟩ := rest ['\n']
        exact ⟨t ++ '\n' :: t', by rw [e', St.push, e]; simp, ht.nl ht'.tidy⟩
      | true =>
        simp only [if_true]
        obtain ⟨u, hu⟩ := hs'.mark rfl
        have hp := hs'.pfx
        rw [hu] at hp
        obtain ⟨t', e', ht'⟩ := rest ((k.act st).listItemIndent ++ trimEnd (k.act st).blockquotePrefix ++ ['\n'])
        have hsep : Th h ((k.act st).listItemIndent ++ trimEnd (k.act st).blockquotePrefix ++ ['\n']) := by
          rw [hu, trimEnd_quote]
          refine th_ended (by simp [hs'.indent]; simp at hp; exact hp) ?_
          rw [← List.append_assoc]
          exact ⟨_, '>', rfl, by decide⟩
        exact ⟨t ++ (_ ++ t'), by rw [e', St.push, e]; simp only [List.append_assoc], ht.append (hsep.append ht')⟩
    · simp

theorem frontMatter_th {h : Bool} {content : List Char} (hl : TidyLines h (trim content)) (hne : trim content ≠ []) :
    Th h (trim content ++ ['\n', '\n']) := by
  have : Th h (trim content) := by
    cases e : trim content with
    | nil => exact absurd e hne
    | cons c u =>
      refine th_of_lines (c := c) (fun l hm => hl l (by rw [e]; exact hm)) rfl ?_
      rintro rfl
      have := trim_head content '\n' (by rw [e]; rfl)
      revert this; decide
  simpa using this.ended.ended

mutual
theorem ser_tidy {cx : Cx} (ho : TidyOptions cx.opts) {h : Bool} :
    ∀ (n : Node) (nb q i : Bool), wellPlaced n = true → TidyNode cx h q i n → KidT cx h q i ⟨n, ser cx n nb⟩
  | .mk v p cs, nb, q, i, hw, hc => by
    refine ⟨ser_ok cx _ nb hw, hc, fun st hs => ?_⟩
    rw [wellPlaced, Bool.and_eq_true, Bool.and_eq_true] at hw
    have nodes : ∀ k ∈ serKids cx cs, k.node ∈ cs := fun k hk => by
      have hm : k.node ∈ (serKids cx cs).map (·.node) := List.mem_map.mpr ⟨k, hk, rfl⟩
      rwa [serKids_nodes] at hm
    have blocks : isListValue v = false → Blocks (serKids cx cs) := fun hl k hk => by
      have := hw.1.2
      rw [hl, Bool.false_or, List.all_eq_true] at this
      simpa using this _ (nodes k hk)
    have ne : cs ≠ [] → serKids cx cs ≠ [] := fun h => by
      cases cs with
      | nil => exact absurd rfl h
      | cons => simp [serKids]
    have head : ∀ f : Node → Bool, (cs.head?.any f) = true → ((serKids cx cs).head?.any fun k => f k.node) = true := fun f h => by
      cases cs with
      | nil => simp at h
      | cons => simpa [serKids] using h
    have lift : ∀ st' : St, (∃ t, st'.output = st.output ++ t ∧ Th h t) →
        ∃ t, st'.output = st.output ++ t ∧ WritesT h (.mk v p cs) st t := fun st' ⟨t, e, ht⟩ => ⟨t, e, .inl ht⟩
    simp only [ser]
    cases v <;> simp only [TidyNode] at hc
    case paragraph => exact lift _ (by simp only [dispatch, serKids_nodes]; exact paragraph_th p cs st hc.1 hc.2.1 hs)
    case heading => exact lift _ (by simp only [dispatch, serKids_nodes]; exact heading_th ho _ cs st hc.1 hc.2.1)
    case codeBlock =>
      exact lift _ (by
        simp only [dispatch, serCodeBlock]
        exact ⟨_, by rw [St.push, codeWarning_output], code_th ho _ _ hc.1 (fun l hl => (hc.2 l hl).imp (·.1) id)⟩)
    case htmlBlock =>
      obtain ⟨h1, c, u, e, hcn⟩ := hc
      exact lift _ ⟨_, rfl, th_of_lines h1 (by rw [e]; rfl) hcn⟩
    case frontMatter => exact lift _ ⟨_, rfl, frontMatter_th hc.1 hc.2⟩
    case table => exact lift _ (by simp only [dispatch, serKids_nodes]; exact table_th p _ cs st hc.1 fun r hr c hcm => (hc.2 r hr c hcm).1)
    case thematicBreak => exact lift _ (break_th ho st hs)
    case list => exact lift _ (list_th (serKids_tidy ho cs q i hw.2 hc.2) (ne hc.1) _ _ st hs)
    case item =>
      obtain ⟨t, e, ht⟩ := item_th ho (serKids_tidy ho cs q true hw.2 hc.2) (blocks rfl) (head _ hc.1) none st hs
      exact ⟨t, e, ht.imp id fun h => ⟨rfl, h⟩⟩
    case taskItem s =>
      obtain ⟨t, e, ht⟩ := item_th ho (serKids_tidy ho cs q true hw.2 hc.2) (blocks rfl) (head _ hc.1) (some s) st hs
      exact ⟨t, e, ht.imp id fun h => ⟨rfl, h⟩⟩
    case blockQuote => exact lift _ (quote_th (serKids_tidy ho cs true false hw.2 hc.2) (blocks rfl) (ne hc.1) st hs)
    case alert => exact lift _ (alert_th (serKids_tidy ho cs true false hw.2 hc) (blocks rfl) _ p st hs)
    case descriptionList => exact lift _ (descriptionList_th _ st (serKids_tidy ho cs q i hw.2 hc.2) (blocks rfl) hs (ne hc.1))
    case descriptionItem => exact lift _ (runKids_first (serKids_tidy ho cs q i hw.2 hc.2) (ne hc.1) st hs (.inl (blocks rfl)))
    case descriptionTerm => exact lift _ (runKids_first (serKids_tidy ho cs q i hw.2 hc.2) (ne hc.1) st hs (.inl (blocks rfl)))
    case descriptionDetails => exact lift _ (details_th ho (serKids_tidy ho cs q i hw.2 hc.2) (blocks rfl) (head _ hc.1) st hs)

theorem serKids_tidy {cx : Cx} (ho : TidyOptions cx.opts) {h : Bool} :
    ∀ (cs : List Node) (q i : Bool), wellPlacedList cs = true → TidyNodes cx h q i cs → ∀ k ∈ serKids cx cs, KidT cx h q i k
  | [], _, _, _, _, k, hk => by simp [serKids] at hk
  | n :: ns, q, i, hw, hc, k, hk => by
    rw [wellPlacedList, Bool.and_eq_true] at hw
    rw [TidyNodes] at hc
    rw [serKids] at hk
    rcases List.mem_cons.mp hk with rfl | hk
    · exact ser_tidy ho n _ q i hw.1 hc.1
    · exact serKids_tidy ho ns q i hw.2 hc.2 k hk
end

end Hongdown
