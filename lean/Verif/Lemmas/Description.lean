import Verif.Lemmas.Indented
import Verif.Lemmas.Quote
import Verif.Spec.Description

/-!
# Description lists
-/

namespace Hongdown
open Model Spec

/-- Whole lines, all but the first of them indented. -/
def FW (s : List Char) : Prop := ∃ t, s = t ++ ['\n'] ∧ FI 4 t

/-- Whole lines, all of them indented. -/
def AW (s : List Char) : Prop := ∃ t, s = t ++ ['\n'] ∧ AI 4 t

theorem AW.fw {s : List Char} (h : AW s) : FW s := by
  obtain ⟨t, e, h⟩ := h
  exact ⟨t, e, h.fi⟩

theorem FW.append {a b : List Char} (ha : FW a) (hb : AW b) : FW (a ++ b) := by
  obtain ⟨t, rfl, ht⟩ := ha
  obtain ⟨u, rfl, hu⟩ := hb
  exact ⟨t ++ '\n' :: u, by simp, ht.nl hu⟩

theorem AW.append {a b : List Char} (ha : AW a) (hb : AW b) : AW (a ++ b) := by
  obtain ⟨t, rfl, ht⟩ := ha
  obtain ⟨u, rfl, hu⟩ := hb
  exact ⟨t ++ '\n' :: u, by simp, ht.nl hu⟩

theorem FW.fi {s : List Char} (h : FW s) : FI 4 s := by
  obtain ⟨t, rfl, ht⟩ := h
  exact ht.nl (b := []) (ai_line (by simp) ind_nil)

theorem AW.blank {b : List Char} (hb : AW b) : AW ('\n' :: b) := by
  obtain ⟨u, rfl, hu⟩ := hb
  exact ⟨'\n' :: u, by simp, hu.blank⟩

theorem FI.aw {a b : List Char} (ha : FI 4 a) (hb : AW b) : FW (a ++ '\n' :: b) := by
  obtain ⟨u, rfl, hu⟩ := hb
  exact ⟨a ++ '\n' :: u, by simp, ha.nl hu⟩

theorem FW.indent {a t : List Char} (ha : FW a) (ht : '\n' ∉ t) (h : spaces 4 <+: t) : AW (t ++ a) := by
  obtain ⟨u, rfl, hu⟩ := ha
  exact ⟨t ++ u, by simp, hu.indent ht h⟩

theorem FW.left {a t : List Char} (ha : FW a) (ht : '\n' ∉ t) : FW (t ++ a) := by
  obtain ⟨u, rfl, hu⟩ := ha
  exact ⟨t ++ u, by simp, hu.left ht⟩

/-- In a description outside of quotes. -/
structure InD (st : St) : Prop where
  details : st.inDescriptionDetails = true
  quote : st.inBlockQuote = false
  entry : st.blockquoteEntryListDepth = 0

theorem InD.of_ctx {a b : St} (h : InD a) (e : ctx b = ctx a) : InD b := by
  obtain ⟨_, _, _, h4, _, _, h7, _, _, _, h11⟩ := ctx_eq e
  exact ⟨h7.trans h.details, h4.trans h.quote, h11.trans h.entry⟩

/-- The item stands right after the colon. -/
def OnColon (st : St) : Prop :=
  st.descriptionDetailsFirstList = true ∧ st.listItemIndex = 0 ∧ st.listDepth = 1

/-- What a block writes in a description. -/
def WritesD (n : Node) (st : St) (t : List Char) : Prop :=
  match n.value with
  | .paragraph => FI 4 t
  | .list _ _ => FW t ∧ (st.descriptionDetailsFirstList = false ∨ 0 < st.listDepth → AW t)
  | .item => FW t ∧ (¬ OnColon st → AW t)
  | .taskItem _ => FW t ∧ (¬ OnColon st → AW t)
  | _ => True

structure ReqD (n : Node) (st : St) : Prop where
  par : n.value = .paragraph → st.listType.isSome = true ∧ 0 < st.listDepth
  item : isItemLike n = true → st.listType.isSome = true ∧ 0 < st.listDepth

def KidD (cx : Cx) (k : Kid) : Prop :=
  KidOk cx k ∧ Describable cx k.node ∧
    ∀ st, InD st → ReqD k.node st → ∃ t, (k.act st).output = st.output ++ t ∧ WritesD k.node st t

theorem InD.act {cx : Cx} {k : Kid} (hk : KidOk cx k) {st : St} (h : InD st) :
    InD (k.act st) ∧ (k.act st).listType = st.listType ∧ (k.act st).listDepth = st.listDepth ∧
    (k.act st).listItemIndex = st.listItemIndex + (if isItemLike k.node then 1 else 0) := by
  have := (hk st).ctx
  rw [kidStart] at this
  split at this
  · next hi =>
    obtain ⟨h1, h2, _, h4, _, h6, h7, _, _, _, h11⟩ := ctx_eq this
    exact ⟨⟨h7.trans h.details, h4.trans h.quote, h11.trans h.entry⟩, h2, h6, by rw [h1, if_pos hi]⟩
  · next hi =>
    obtain ⟨h1, h2, _, h4, _, h6, h7, _, _, _, h11⟩ := ctx_eq this
    exact ⟨⟨h7.trans h.details, h4.trans h.quote, h11.trans h.entry⟩, h2, h6, by rw [h1, if_neg hi]; rfl⟩

theorem paragraph_writes {cx : Cx} (p : Pos) (cs : List Node) (st : St) (ha : NoAbbreviation cx p)
    (hd : InD st) (ht : st.listType.isSome = true) (hp : 0 < st.listDepth) :
    ∃ t, (serParagraph cx p cs st).output = st.output ++ t ∧ FI 4 t := by
  rw [serParagraph, abbreviation_none ha]
  simp only
  obtain ⟨e0, e⟩ := addReferences_keep st (collectInlines cx cs).2
  obtain ⟨_, h2, _, h4, h5, h6, h7, _, _, h10, h11⟩ := ctx_eq e
  rw [h2, ht]
  simp only [if_true]
  refine ⟨_, by rw [St.push]; simp only [e0]; rfl, ?_⟩
  rw [paragraphContinuation, h7, hd.details, h4, h6, h11, hd.quote, hd.entry]
  simp only [true_and, Nat.sub_zero, hp, if_true, Bool.false_eq_true, if_false]
  have : spaces 5 ++ spaces (1 + cx.opts.trailingSpaces) ++ spaces (4 * (st.listDepth - 1)) =
      spaces (5 + (1 + cx.opts.trailingSpaces) + 4 * (st.listDepth - 1)) := by
    simp only [spaces, List.replicate_append_replicate]
  rw [this]
  exact wrapTextFirstLine_fi cx.width _ (by simp) (by omega)

theorem codeLineIndented_aw {indent line : List Char} (hn : '\n' ∉ indent) (hi : spaces 4 <+: indent) (hl : '\n' ∉ line) :
    AW (codeLineIndented false indent line) := by
  rw [codeLineIndented]
  simp only [Bool.false_eq_true, if_false, List.nil_append]
  refine ⟨_, rfl, ?_⟩
  split
  · exact ai_line (by simp) ind_nil
  · exact ai_line (by simp [hn, hl]) (.inr (hi.trans (List.prefix_append _ _)))

theorem openFence_fw {cx : Cx} (ho : NoNl cx.opts) {fence info : List Char} (hf : '\n' ∉ fence) (hi : '\n' ∉ info) :
    FW (openFence cx fence info) := by
  refine ⟨_, rfl, fi_line ?_⟩
  have := outputInfo_nl ho hi
  split
  · simp [hf]
  · split <;> simp [hf, this]

theorem fw_flatMap {α : Type} {f : α → List Char} : ∀ (l : List α) {a : List Char}, FW a → (∀ x ∈ l, AW (f x)) →
    FW (a ++ l.flatMap f)
  | [], a, ha, _ => by simpa using ha
  | x :: l, a, ha, h => by
    rw [List.flatMap_cons, ← List.append_assoc]
    exact fw_flatMap l (ha.append (h x (by simp))) fun y hy => h y (by simp [hy])

theorem codeIndented_fw {cx : Cx} (ho : NoNl cx.opts) {info content indent : List Char} (hi : '\n' ∉ info)
    (hn : '\n' ∉ indent) (h4 : spaces 4 <+: indent) : FW (codeBlockIndentedText cx false info content indent) := by
  rw [codeBlockIndentedText]
  generalize hfe : List.replicate (fenceLength cx.opts.minFenceLength cx.opts.fenceChar content) cx.opts.fenceChar = fence
  have hf : '\n' ∉ fence := by rw [← hfe]; simp [Ne.symm ho.fence]
  have h1 := fw_flatMap (lines content) (openFence_fw ho hf hi)
    (fun l hl => codeLineIndented_aw hn h4 (lines_no_nl _ l hl))
  have h2 : AW (indent ++ fence ++ ['\n']) :=
    ⟨_, rfl, ai_line (by simp [hn, hf]) (.inr (h4.trans (List.prefix_append _ _)))⟩
  simpa using h1.append h2

theorem codeWith_fw {cx : Cx} (ho : NoNl cx.opts) {info content indent : List Char} (hi : '\n' ∉ info)
    (hn : '\n' ∉ indent) (h4 : spaces 4 <+: indent) : FW (codeBlockWithIndentText cx info content indent) := by
  rw [codeBlockWithIndentText]
  generalize hfe : (if containsSub (List.replicate cx.opts.minFenceLength cx.opts.fenceChar) content then
    cx.opts.fenceChar :: List.replicate cx.opts.minFenceLength cx.opts.fenceChar else
    List.replicate cx.opts.minFenceLength cx.opts.fenceChar) = fence
  have hf : '\n' ∉ fence := by rw [← hfe]; split <;> simp [Ne.symm ho.fence]
  have h1 := fw_flatMap (lines content) (openFence_fw ho hf hi)
    (fun l hl => codeLineIndented_aw hn h4 (lines_no_nl _ l hl))
  have h2 : AW (indent ++ fence ++ ['\n']) :=
    ⟨_, rfl, ai_line (by simp [hn, hf]) (.inr (h4.trans (List.prefix_append _ _)))⟩
  have h3 := h2.blank
  split
  · simpa using h1.append h3
  · simpa using h1.append h2

theorem code_writes {cx : Cx} (ho : NoNl cx.opts) {info indent : List Char} (literal : List Char) (st : St)
    (hq : st.inBlockQuote = false) (hi : '\n' ∉ info) (hn : '\n' ∉ indent) (h4 : spaces 4 <+: indent) :
    ∃ t, (serCodeBlockIndented cx info literal indent st).output = st.output ++ t ∧ FW t := by
  have e0 : (addCodeWarning st (codeContent cx info literal).2).output = st.output := by
    rw [addCodeWarning.eq_def]; split <;> rfl
  rw [serCodeBlockIndented, hq]
  exact ⟨_, by rw [St.push]; simp only [e0]; rfl, codeIndented_fw ho hi hn h4⟩

theorem codeWith_writes {cx : Cx} (ho : NoNl cx.opts) {info indent : List Char} (literal : List Char) (st : St)
    (hi : '\n' ∉ info) (hn : '\n' ∉ indent) (h4 : spaces 4 <+: indent) :
    ∃ t, (serCodeBlockWithIndent cx info literal indent st).output = st.output ++ t ∧ FW t := by
  have e0 : (addCodeWarning st (codeContent cx info literal).2).output = st.output := by
    rw [addCodeWarning.eq_def]; split <;> rfl
  rw [serCodeBlockWithIndent]
  exact ⟨_, by rw [St.push]; simp only [e0]; rfl, codeWith_fw ho hi hn h4⟩

theorem itemIndent_description {cx : Cx} {st : St} (hd : InD st) :
    '\n' ∉ itemIndent cx st ∧ spaces 4 <+: itemIndent cx st := by
  rw [itemIndent]
  simp only [hd.details, if_true]
  constructor
  · simp [spaces]
  · exact (spaces_prefix (by omega)).trans (List.prefix_append _ _)

theorem itemMarker_nl {cx : Cx} (ho : NoNl cx.opts) (st : St) : '\n' ∉ itemMarker cx st := by
  rw [itemMarker]
  split
  · simp only [List.mem_append, not_or]
    refine ⟨⟨?_, by simp [Ne.symm ho.bullet]⟩, spaces_no_nl _⟩
    split
    · simp
    · exact spaces_no_nl _
  · have hdig : '\n' ∉ (Nat.repr st.listItemIndex).toList := by
      rw [Nat.toList_repr]
      intro h
      have := Nat.isDigit_of_mem_toDigits (by decide) (by decide) h
      exact absurd this (by decide)
    simp only [List.mem_append, List.mem_singleton, not_or, spaces, List.mem_replicate]
    refine ⟨⟨hdig, ?_⟩, by simp⟩
    split
    · exact Ne.symm ho.odd
    · exact Ne.symm ho.even
  · simp

/-- The lead of an item: maybe a blank line, and then the marker. -/
theorem itemLead_description {cx : Cx} (ho : NoNl cx.opts) (task : Option (Option Char)) (st : St) (hd : InD st) :
    ∃ b m, itemLead cx task st = b ++ m ∧ '\n' ∉ m ∧ (st.listItemIndex = 1 → b = []) ∧ (b = [] ∨ b = ['\n']) ∧
      (¬ (st.descriptionDetailsFirstList = true ∧ st.listItemIndex = 1 ∧ st.listDepth = 1) → spaces 4 <+: m) := by
  have h1 := itemMarker_nl ho st
  have h2 : '\n' ∉ taskBox task := by
    rcases task with _ | _ | _ <;> simp [taskBox]
  refine ⟨(if !st.listTight && 1 < st.listItemIndex then ['\n'] else []),
    (if st.descriptionDetailsFirstList && st.listItemIndex == 1 && st.listDepth == 1 then [] else spaces 5) ++
    ((if 1 < st.listDepth then spaces (listIndentWidth cx st * (st.listDepth - 1)) else []) ++
    (itemMarker cx st ++ taskBox task)), ?_, ?_, ?_, ?_, ?_⟩
  · rw [itemLead, hd.details, hd.quote]
    cases st.descriptionDetailsFirstList && st.listItemIndex == 1 && st.listDepth == 1 <;> simp
  · simp only [List.mem_append, not_or]
    refine ⟨?_, ?_, h1, h2⟩
    · split <;> simp [spaces]
    · split <;> simp [spaces]
  · intro h
    simp [h]
  · split
    · exact .inr rfl
    · exact .inl rfl
  · intro h
    rw [if_neg]
    · exact (spaces_prefix (by omega)).trans (List.prefix_append _ _)
    · simp only [Bool.and_eq_true, beq_iff_eq]
      exact fun h' => h ⟨h'.1.1, h'.1.2, h'.2⟩

theorem orElse_last {α β : Type} (f : α → β) (k : α) (ks : List α) (prev : Option β) :
    ((k :: ks).getLast?.map f).or prev = (ks.getLast?.map f).or (some (f k)) := by
  cases ks with
  | nil => rfl
  | cons x xs => rw [List.getLast?_cons_cons, List.getLast?_eq_getLast (by simp)]; rfl

/-- The rest of an item, after the text `u`. -/
theorem itemChildren_writes {cx : Cx} (ho : NoNl cx.opts) {indent : List Char} (hn : '\n' ∉ indent)
    (h4 : spaces 4 <+: indent) : ∀ (kids : List Kid) (prev : Option Node) (st : St) (out u : List Char),
    (∀ k ∈ kids, KidD cx k) → Blocks kids → InD st → st.listType.isSome = true → 0 < st.listDepth →
    st.output = out ++ u → FI 4 u → (prev.any endsLine = true → FW u) →
    (prev = none → u = []) →
    ∃ t, (serItemChildren cx indent prev kids st).output = out ++ t ∧ FI 4 t ∧
      (((kids.getLast?.map (·.node)).or prev).any endsLine = true → FW t)
  | [], prev, st, out, u, _, _, _, _, _, e, hu, hf, _ => ⟨u, by rw [serItemChildren]; exact e, hu, by simpa using hf⟩
  | k :: ks, prev, st, out, u, h, hb, hd, ht, hp, e, hu, hf, hz => by
    rw [serItemChildren, orElse_last]
    have hk := h k (by simp)
    have hi := hb k (by simp)
    have hctx : ∀ s, ctx s = ctx st → InD s ∧ s.listType.isSome = true ∧ 0 < s.listDepth := fun s e => by
      obtain ⟨_, h2, _, _, _, h6, _⟩ := ctx_eq e
      exact ⟨hd.of_ctx e, by rw [h2]; exact ht, by rw [h6]; exact hp⟩
    have hok := (serItemChild_ok hk.1 hi indent prev st).ctx
    obtain ⟨a1, a2, a3⟩ := hctx _ hok
    suffices hs : ∃ v, (serItemChild cx indent prev k st).output = out ++ v ∧ FI 4 v ∧
        (endsLine k.node = true → FW v) by
      obtain ⟨v, e1, hv, hv'⟩ := hs
      exact itemChildren_writes ho hn h4 ks (some k.node) _ out v (fun x hx => h x (by simp [hx]))
        (fun x hx => hb x (by simp [hx])) a1 a2 a3 e1 hv (by simpa using hv')
        (by simp)
    have act : ∀ w, ∃ t, (k.act (st.push w)).output = st.output ++ w ++ t ∧ WritesD k.node (st.push w) t := fun w => by
      obtain ⟨b1, b2, b3⟩ := hctx (st.push w) rfl
      exact hk.2.2 (st.push w) b1 ⟨fun _ => ⟨b2, b3⟩, fun _ => ⟨b2, b3⟩⟩
    have hdesc := hk.2.1
    obtain ⟨⟨v, p, cs⟩, act'⟩ := k
    cases v <;> simp only [Describable] at hdesc
    case list type tight =>
      rw [serItemChild.eq_def]
      simp only [Node.value]
      split
      · obtain ⟨t, e1, h1⟩ := act ['\n', '\n']
        have haw : AW t := h1.2 (.inr hp)
        refine ⟨u ++ '\n' :: '\n' :: t, by rw [e1, e]; simp, (hu.aw haw.blank).fi, fun _ => hu.aw haw.blank⟩
      · obtain ⟨t, e1, h1⟩ := act ['\n']
        have haw : AW t := h1.2 (.inr hp)
        refine ⟨u ++ '\n' :: t, by rw [e1, e]; simp, (hu.aw haw).fi, fun _ => hu.aw haw⟩
    case paragraph =>
      rw [serItemChild.eq_def]
      simp only [Node.value, hd.quote]
      refine (?_ : ∃ v, _ ∧ FI 4 v).imp fun v hv => ⟨hv.1, hv.2, fun h => by
        simp [endsLine, Node.isList, Node.isCodeBlock, Node.isQuote, Node.value] at h⟩
      cases prev with
      | none =>
        obtain ⟨t, e1, h1⟩ := act []
        rw [St.push, List.append_nil] at e1
        have h1 : FI 4 t := h1
        exact ⟨t, by rw [hz rfl, List.append_nil] at e; rw [← e]; exact e1, h1⟩
      | some q =>
        have key : ∀ w, (w = [] ∨ w = ['\n']) → ∃ v, (act' (st.push ('\n' :: w ++ indent))).output = out ++ v ∧ FI 4 v := by
          intro w hw
          obtain ⟨t, e1, h1⟩ := act ('\n' :: w ++ indent)
          have h1 : FI 4 t := h1
          have h2 := h1.indent hn h4
          rcases hw with rfl | rfl
          · exact ⟨u ++ '\n' :: (indent ++ t), by rw [e1, e]; simp, hu.nl h2⟩
          · exact ⟨u ++ '\n' :: '\n' :: (indent ++ t), by rw [e1, e]; simp, hu.nl h2.blank⟩
        simp only [Bool.false_eq_true, if_false, List.append_nil]
        split
        · exact key [] (.inl rfl)
        · exact key ['\n'] (.inr rfl)
    case codeBlock info literal =>
      rw [serItemChild.eq_def]
      simp only [Node.value, hd.quote]
      obtain ⟨t, e1, h1⟩ := code_writes ho (info := info) (indent := indent) literal (st.push (['\n', '\n'] ++ indent))
        hd.quote hdesc hn h4
      have haw := h1.indent hn h4
      refine ⟨u ++ '\n' :: '\n' :: (indent ++ t), ?_, (hu.aw haw.blank).fi, fun _ => hu.aw haw.blank⟩
      simp only [Bool.false_eq_true, if_false, List.append_nil]
      rw [e1, St.push, e]; simp
    case item => simp [isItemLike, Node.value] at hi
    case taskItem => simp [isItemLike, Node.value] at hi

theorem items_writes {cx : Cx} : ∀ (kids : List Kid) (st : St) (out u : List Char), (∀ k ∈ kids, KidD cx k) →
    (∀ k ∈ kids, isItemLike k.node = true) → InD st → st.listType.isSome = true → 0 < st.listDepth →
    0 < st.listItemIndex → st.output = out ++ u →
    ∃ t, (runKids kids st).output = out ++ t ∧ (FW u → FW t) ∧ (AW u → AW t)
  | [], st, out, u, _, _, _, _, _, _, e => ⟨u, e, id, id⟩
  | k :: ks, st, out, u, h, hb, hd, ht, hp, hx, e => by
    have hk := h k (by simp)
    have hi := hb k (by simp)
    obtain ⟨t, e1, h1⟩ := hk.2.2 st hd ⟨fun _ => ⟨ht, hp⟩, fun _ => ⟨ht, hp⟩⟩
    have haw : AW t := by
      have hc : ¬ OnColon st := fun h => by have := h.2.1; omega
      unfold isItemLike at hi
      unfold WritesD at h1
      split at hi <;> simp_all
    obtain ⟨d1, d2, d3, d4⟩ := InD.act hk.1 hd
    obtain ⟨t', e2, h2, h3⟩ := items_writes ks (k.act st) out (u ++ t) (fun x hx => h x (by simp [hx]))
      (fun x hx => hb x (by simp [hx])) d1 (by rw [d2]; exact ht) (by rw [d3]; exact hp) (by omega)
      (by rw [e1, e, List.append_assoc])
    exact ⟨t', e2, fun h => h2 (h.append haw), fun h => h3 (h.append haw)⟩

theorem list_writes {cx : Cx} {kids : List Kid} (h : ∀ k ∈ kids, KidD cx k) (hne : kids ≠ [])
    (hb : ∀ k ∈ kids, isItemLike k.node = true) (type : ListType) (tight : Bool) (st : St) (hd : InD st) :
    ∃ t, (serList type tight kids st).output = st.output ++ t ∧ FW t ∧
      (st.descriptionDetailsFirstList = false ∨ 0 < st.listDepth → AW t) := by
  rw [serList]
  simp only
  generalize hst : ({ st with
      listType := some type
      listTight := tight
      listItemIndex := 0
      listDepth := st.listDepth + 1
      orderedListMaxItems := if type = .ordered then (kids.filter fun k => k.node.isItem).length
        else st.orderedListMaxItems } : St) = s
  have hs : InD s := by rw [← hst]; exact ⟨hd.details, hd.quote, hd.entry⟩
  have ht : s.listType.isSome = true := by rw [← hst]; rfl
  have hp : 0 < s.listDepth := by rw [← hst]; exact Nat.succ_pos _
  have e : s.output = st.output := by rw [← hst]
  have hc : st.descriptionDetailsFirstList = false ∨ 0 < st.listDepth → ¬ OnColon s := by
    rw [← hst]
    rintro (h | h) ⟨h1, _, h3⟩
    · simp [h] at h1
    · simp at h3; omega
  match kids, hne with
  | k :: ks, _ =>
    have hk := h k (by simp)
    have hi := hb k (by simp)
    obtain ⟨t, e1, h1⟩ := hk.2.2 s hs ⟨fun _ => ⟨ht, hp⟩, fun _ => ⟨ht, hp⟩⟩
    have haw : FW t ∧ (¬ OnColon s → AW t) := by
      unfold isItemLike at hi
      unfold WritesD at h1
      split at hi <;> simp_all
    obtain ⟨d1, d2, d3, d4⟩ := InD.act hk.1 hs
    rw [hi, if_pos rfl] at d4
    obtain ⟨t', e2, h2, h3⟩ := items_writes ks (k.act s) st.output t (fun x hx => h x (by simp [hx]))
      (fun x hx => hb x (by simp [hx])) d1 (by rw [d2]; exact ht) (by rw [d3]; exact hp) (by omega)
      (by rw [e1, e])
    exact ⟨t', e2, h2 haw.1, fun h => h3 (haw.2 (hc h))⟩

theorem item_writes {cx : Cx} (ho : NoNl cx.opts) {kids : List Kid} (h : ∀ k ∈ kids, KidD cx k) (hb : Blocks kids)
    (task : Option (Option Char)) (st : St) (hd : InD st) (ht : st.listType.isSome = true) (hp : 0 < st.listDepth) :
    ∃ t, (serItem cx task kids st).output = st.output ++ t ∧ FW t ∧ (¬ OnColon st → AW t) := by
  rw [serItem]
  generalize hst : ({ st with listItemIndex := st.listItemIndex + 1 } : St) = s
  have hs : InD s := by rw [← hst]; exact ⟨hd.details, hd.quote, hd.entry⟩
  have hidx : s.listItemIndex = st.listItemIndex + 1 := by rw [← hst]
  have hfl : s.descriptionDetailsFirstList = st.descriptionDetailsFirstList := by rw [← hst]
  have hdp : s.listDepth = st.listDepth := by rw [← hst]
  have e : s.output = st.output := by rw [← hst]
  have hts : s.listType.isSome = true := by rw [← hst]; exact ht
  obtain ⟨b, m, el, hm, hb1, hb2, hm4⟩ := itemLead_description ho task s hs
  have hind := itemIndent_description (cx := cx) (st := s.push (itemLead cx task s)) ⟨hs.details, hs.quote, hs.entry⟩
  generalize itemIndent cx (s.push (itemLead cx task s)) = indent at hind ⊢
  obtain ⟨t, e1, h1, h2⟩ := itemChildren_writes ho hind.1 hind.2 kids none
    { s.push (itemLead cx task s) with listItemIndent := indent } (st.output ++ (b ++ m)) [] h hb
    ⟨hs.details, hs.quote, hs.entry⟩ hts (by rw [← hdp] at hp; exact hp) (by simp [St.push, el, e]) (fi_line (by simp))
    (by simp) (fun _ => rfl)
  have hfw : ∃ t', (if (kids.getLast?.any fun k => endsLine k.node) = true then
      { serItemChildren cx indent none kids { s.push (itemLead cx task s) with listItemIndent := indent } with
        listItemIndent := (s.push (itemLead cx task s)).listItemIndent }
      else ({ serItemChildren cx indent none kids { s.push (itemLead cx task s) with listItemIndent := indent } with
        listItemIndent := (s.push (itemLead cx task s)).listItemIndent } : St).push ['\n']).output =
        st.output ++ (b ++ m) ++ t' ∧ FW t' := by
    split
    · next hl =>
      refine ⟨t, e1, h2 ?_⟩
      cases hk : kids.getLast? with
      | none => simp [hk] at hl
      | some k => simpa [hk] using hl
    · exact ⟨t ++ ['\n'], (congrArg (· ++ ['\n']) e1).trans (by simp), t, rfl, h1⟩
  obtain ⟨t', e2, h3⟩ := hfw
  refine ⟨b ++ (m ++ t'), by rw [e2]; simp, ?_⟩
  by_cases hc : OnColon st
  · refine ⟨?_, fun h => absurd hc h⟩
    rw [hb1 (by rw [hidx, hc.2.1])]
    exact h3.left hm
  · have haw : AW (m ++ t') := h3.indent hm (hm4 fun h => hc ⟨hfl ▸ h.1, by have := h.2.1; omega, hdp ▸ h.2.2⟩)
    have haw : AW (b ++ (m ++ t')) := by
      rcases hb2 with rfl | rfl
      · exact haw
      · exact haw.blank
    exact ⟨haw.fw, fun _ => haw⟩

mutual
theorem ser_description {cx : Cx} (ho : NoNl cx.opts) :
    ∀ (n : Node) (nb : Bool), wellPlaced n = true → Describable cx n → KidD cx ⟨n, ser cx n nb⟩
  | .mk v p cs, nb, hw, hc => by
    refine ⟨ser_ok cx _ nb hw, hc, fun st hd hr => ?_⟩
    rw [wellPlaced, Bool.and_eq_true] at hw
    have nodes : ∀ k ∈ serKids cx cs, k.node ∈ cs := fun k hk => by
      have hm : k.node ∈ (serKids cx cs).map (·.node) := List.mem_map.mpr ⟨k, hk, rfl⟩
      rwa [serKids_nodes] at hm
    simp only [ser]
    cases v <;> simp only [Describable] at hc
    case paragraph =>
      obtain ⟨h1, h2⟩ := hr.par rfl
      exact paragraph_writes p _ st hc hd h1 h2
    case codeBlock => 
      have hok := (ser_ok cx (.mk (.codeBlock _ _) p cs) nb (by rw [wellPlaced, Bool.and_eq_true]; exact hw)).act rfl st
      obtain ⟨t, e⟩ := hok.out
      exact ⟨t, e.symm, trivial⟩
    case list =>
      refine list_writes (serKids_description ho cs hw.2 hc.2.2) ?_ (fun k hk => ?_) _ _ st hd
      · cases cs with
        | nil => exact absurd rfl hc.1
        | cons => simp [serKids]
      · exact List.all_eq_true.mp hc.2.1 _ (nodes k hk)
    case item =>
      obtain ⟨h1, h2⟩ := hr.item rfl
      refine item_writes ho (serKids_description ho cs hw.2 hc.2) (fun k hk => ?_) _ st hd h1 h2
      simpa using List.all_eq_true.mp hc.1 _ (nodes k hk)
    case taskItem =>
      obtain ⟨h1, h2⟩ := hr.item rfl
      refine item_writes ho (serKids_description ho cs hw.2 hc.2) (fun k hk => ?_) _ st hd h1 h2
      simpa using List.all_eq_true.mp hc.1 _ (nodes k hk)

theorem serKids_description {cx : Cx} (ho : NoNl cx.opts) :
    ∀ (cs : List Node), wellPlacedList cs = true → DescribableList cx cs → ∀ k ∈ serKids cx cs, KidD cx k
  | [], _, _, k, hk => by simp [serKids] at hk
  | n :: ns, hw, hc, k, hk => by
    rw [wellPlacedList, Bool.and_eq_true] at hw
    rw [DescribableList] at hc
    rw [serKids] at hk
    rcases List.mem_cons.mp hk with rfl | hk
    · exact ser_description ho n _ hw.1 hc.1
    · exact serKids_description ho ns hw.2 hc.2 k hk
end

theorem detailsParagraph_writes {cx : Cx} (lead : List Char) (cs : List Node) (st : St) :
    ∃ t, (serDetailsParagraph cx [] lead cs st).output = st.output ++ (lead ++ t) ∧ FW t := by
  rw [serDetailsParagraph]
  obtain ⟨e0, _⟩ := addReferences_keep st (collectInlines cx cs).2
  refine ⟨wrapTextFirstLine cx.width (trim (collectInlines cx cs).1) [] (spaces 4) cx.opts.lineWidth ++ ['\n'],
    by rw [St.push, e0]; simp, _, rfl, ?_⟩
  exact wrapTextFirstLine_fi cx.width _ (by simp) (Nat.le_refl 4)

theorem detailsFirst_writes {cx : Cx} (ho : NoNl cx.opts) {k : Kid} (hk : KidD cx k) (hi : isItemLike k.node = false)
    (st : St) (hd : InD st) :
    ∃ t, (serDetailsChild cx [] true k st).output = st.output ++ ([':', ' ', ' ', ' '] ++ t) ∧ FW t := by
  have act := hk.2.2
  have hdesc := hk.2.1
  obtain ⟨⟨v, p, cs⟩, act'⟩ := k
  rw [serDetailsChild.eq_def]
  cases v <;> simp only [Describable] at hdesc
  case paragraph => exact detailsParagraph_writes _ _ st
  case codeBlock info literal =>
    obtain ⟨t, e, h⟩ := codeWith_writes ho (info := info) (indent := spaces 4) literal
      (st.push ([':', ' ', ' ', ' ', '\n'] ++ spaces 4)) hdesc (spaces_no_nl 4) List.prefix_rfl
    refine ⟨'\n' :: (spaces 4 ++ t), ?_, (h.indent (spaces_no_nl 4) List.prefix_rfl).blank.fw⟩
    simp only [if_true, Node.value, List.nil_append]
    simp only [List.append_nil]
    rw [e]
    simp [St.push]
  case list =>
    obtain ⟨t, e, h⟩ := act { st.push [':', ' ', ' ', ' ', ' '] with descriptionDetailsFirstList := true }
      ⟨hd.details, hd.quote, hd.entry⟩ ⟨fun h => by simp [Node.value] at h, fun h => by simp [isItemLike, Node.value] at h⟩
    refine ⟨' ' :: t, ?_, FW.left (t := [' ']) h.1 (by simp)⟩
    simp only [if_true, Node.value, List.nil_append]
    refine e.trans ?_
    simp [St.push]
  case item => simp [isItemLike, Node.value] at hi
  case taskItem => simp [isItemLike, Node.value] at hi

theorem detailsRest_writes {cx : Cx} (ho : NoNl cx.opts) {k : Kid} (hk : KidD cx k) (hi : isItemLike k.node = false)
    (st : St) (hd : InD st) (hf : st.descriptionDetailsFirstList = false) :
    ∃ t, (serDetailsChild cx [] false k st).output = st.output ++ t ∧ AW t := by
  have act := hk.2.2
  have hdesc := hk.2.1
  obtain ⟨⟨v, p, cs⟩, act'⟩ := k
  rw [serDetailsChild.eq_def]
  cases v <;> simp only [Describable] at hdesc
  case paragraph =>
    obtain ⟨t, e, h⟩ := detailsParagraph_writes (cx := cx) (spaces 4) cs (st.push ['\n'])
    exact ⟨'\n' :: (spaces 4 ++ t), e.trans (by simp [St.push]), (h.indent (spaces_no_nl 4) List.prefix_rfl).blank⟩
  case codeBlock info literal =>
    obtain ⟨t, e, h⟩ := codeWith_writes ho (info := info) (indent := spaces 4) literal
      ((st.push ['\n']).push (spaces 4)) hdesc (spaces_no_nl 4) List.prefix_rfl
    exact ⟨'\n' :: (spaces 4 ++ t), e.trans (by simp [St.push]), (h.indent (spaces_no_nl 4) List.prefix_rfl).blank⟩
  case list =>
    obtain ⟨t, e, h⟩ := act (st.push ['\n'])
      ⟨hd.details, hd.quote, hd.entry⟩ ⟨fun h => by simp [Node.value] at h, fun h => by simp [isItemLike, Node.value] at h⟩
    exact ⟨'\n' :: t, e.trans (by simp [St.push]), (h.2 (.inl hf)).blank⟩
  case item => simp [isItemLike, Node.value] at hi
  case taskItem => simp [isItemLike, Node.value] at hi

end Hongdown
