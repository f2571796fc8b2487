import Verif.Lemmas.Frame
import Verif.Lemmas.Code
import Verif.Lemmas.DocRun
import Verif.Spec.Unused
import Verif.Lemmas.SamePunct

/-!
# Lemmas for C99: options that a document does not use
-/

namespace Hongdown
open Model Spec

variable {cx : Cx} {o : Options} {V : NodeValue → Prop}

/-- Contexts that only have lists and descriptions of `V`. -/
def ListsFrom (V : NodeValue → Prop) (st : St) : Prop :=
  (∀ t, st.listType = some t → ∃ b, V (.list t b)) ∧ (st.listType = none → st.listDepth = 0) ∧
    (st.inDescriptionDetails = true → V .descriptionDetails)

theorem allowed_ctx {a b : St} (h : ListsFrom V a) (e1 : b.listType = a.listType) (e2 : b.listDepth = a.listDepth)
    (e3 : b.inDescriptionDetails = a.inDescriptionDetails) : ListsFrom V b := by
  unfold ListsFrom at *
  rw [e1, e2, e3]
  exact h

theorem allowed_kid {u : Uses} {k : Kid} {st b : St} (h : ListsFrom V st) (e : OkAt u (kidStart k st) b) : ListsFrom V b := by
  obtain ⟨_, e1, _, _, _, e2, e3, _⟩ := ctx_eq e.ctx
  have hk : (kidStart k st).listType = st.listType ∧ (kidStart k st).listDepth = st.listDepth ∧
      (kidStart k st).inDescriptionDetails = st.inDescriptionDetails := by
    unfold kidStart
    split <;> exact ⟨rfl, rfl, rfl⟩
  exact allowed_ctx h (e1.trans hk.1) (e2.trans hk.2.1) (e3.trans hk.2.2)

/-! ### Text -/

theorem textNode_same (S : SameFor V cx.opts o) {t : List Char} (h : V (.text t)) (p : Pos) :
    textNode { cx with opts := o } t p = textNode cx t p := by
  unfold textNode
  rw [show transformPunctuation ({ cx with opts := o } : Cx).uni ({ cx with opts := o } : Cx).opts.punct t =
    transformPunctuation cx.uni cx.opts.punct t from (transformPunctuation_same cx.uni (S.punct t h)).symm]
  rfl

mutual
theorem collectText_same (S : SameFor V cx.opts o) : ∀ (n : Node), (∀ v ∈ kinds n, V v) →
    collectText { cx with opts := o } n = collectText cx n
  | .mk v p cs, h => by
    have hv : V v := h v (by simp [kinds])
    have hc := collectTexts_same S cs (fun w hw => h w (by simp [kinds, hw]))
    cases v <;> simp only [collectText, hc] <;> first | rfl | skip
    case text t => rw [textNode_same S hv]

theorem collectTexts_same (S : SameFor V cx.opts o) : ∀ (ns : List Node), (∀ v ∈ kindsList ns, V v) →
    collectTexts { cx with opts := o } ns = collectTexts cx ns
  | [], _ => by simp only [collectTexts]
  | n :: ns, h => by
    simp only [collectTexts]
    rw [collectText_same S n (fun v hv => h v (by simp [kindsList, hv])),
      collectTexts_same S ns (fun v hv => h v (by simp [kindsList, hv]))]
end

mutual
theorem collectInline_same (S : SameFor V cx.opts o) : ∀ (n : Node) (nb : Bool), (∀ v ∈ kinds n, V v) →
    collectInline { cx with opts := o } nb n = collectInline cx nb n
  | .mk v p cs, nb, h => by
    have hv : V v := h v (by simp [kinds])
    have hc := collectInlines_same S cs (fun w hw => h w (by simp [kinds, hw]))
    cases v <;> simp only [collectInline, hc] <;> first | rfl | skip
    case text t => rw [textNode_same S hv]

theorem collectInlines_same (S : SameFor V cx.opts o) : ∀ (ns : List Node), (∀ v ∈ kindsList ns, V v) →
    collectInlines { cx with opts := o } ns = collectInlines cx ns
  | [], _ => by simp only [collectInlines]
  | n :: ns, h => by
    simp only [collectInlines]
    rw [collectInline_same S n _ (fun v hv => h v (by simp [kindsList, hv])),
      collectInlines_same S ns (fun v hv => h v (by simp [kindsList, hv]))]
end

/-! ### Blocks -/

theorem serHeading_same (S : SameFor V cx.opts o) (level : Nat) (cs : List Node) (hv : V (.heading level))
    (h : ∀ v ∈ kindsList cs, V v) (st : St) :
    serHeading { cx with opts := o } level cs st = serHeading cx level cs st := by
  have e := collectTexts_same S cs h
  have hs := S.sentenceCase ⟨level, hv⟩
  have ht : ∀ text, headingText { cx with opts := o } level text = headingText cx level text := by
    intro text
    unfold headingText
    by_cases h1 : level = 1
    · subst h1
      rw [show ({ cx with opts := o } : Cx).opts.setextH1 = cx.opts.setextH1 from (S.setextH1 hv).symm]
      simp
    · by_cases h2 : level = 2
      · subst h2
        rw [show ({ cx with opts := o } : Cx).opts.setextH2 = cx.opts.setextH2 from (S.setextH2 hv).symm]
        simp
      · simp [h1, h2]
  unfold serHeading
  rw [e]
  simp only [ht]
  rw [show ({ cx with opts := o } : Cx).opts.headingSentenceCase = cx.opts.headingSentenceCase from hs.symm]
  cases hc : cx.opts.headingSentenceCase with
  | false => rfl
  | true =>
    have hn := S.nouns ⟨level, hv⟩ hc
    have : headingNouns { cx with opts := o } st = headingNouns cx st := by
      unfold headingNouns
      simp only [← hn.1, ← hn.2]
    simp only [this]

theorem paragraphContinuation_same (S : SameFor V cx.opts o) {st : St} (ha : ListsFrom V st) (hl : st.listType.isSome = true) :
    paragraphContinuation { cx with opts := o } st = paragraphContinuation cx st := by
  unfold paragraphContinuation
  by_cases hd : st.inDescriptionDetails = true
  · have : cx.opts.trailingSpaces = o.trailingSpaces := by
      obtain ⟨t, ht⟩ := Option.isSome_iff_exists.mp hl
      cases t with
      | bullet => exact S.trailing (Or.inl (ha.1 _ ht))
      | ordered => exact S.trailing (Or.inr ⟨ha.1 _ ht, ha.2.2 hd⟩)
    simp only [this]
  · simp only [hd, false_and, if_false]
    simp

theorem serParagraph_same (S : SameFor V cx.opts o) (p : Pos) (cs : List Node) (hv : V .paragraph)
    (h : ∀ v ∈ kindsList cs, V v) {st : St} (ha : ListsFrom V st) :
    serParagraph { cx with opts := o } p cs st = serParagraph cx p cs st := by
  have e := collectInlines_same S cs h
  unfold serParagraph
  rw [e, show ({ cx with opts := o } : Cx).opts.lineWidth = cx.opts.lineWidth from (S.lineWidth (Or.inl hv)).symm]
  rw [show abbreviationDef { cx with opts := o } p = abbreviationDef cx p from rfl]
  cases abbreviationDef cx p with
  | some src => rfl
  | none =>
    simp only
    have ho := (okAt_addReferences (collectInlines cx cs).2 st).ctx
    obtain ⟨_, e1, _, _, _, e2, e3, _⟩ := ctx_eq ho
    have ha' := allowed_ctx ha e1 e2 e3
    split
    · next hl => rw [paragraphContinuation_same S ha' hl]
    · rfl

theorem serThematicBreak_same (S : SameFor V cx.opts o) (hv : V .thematicBreak) (st : St) :
    serThematicBreak { cx with opts := o } st = serThematicBreak cx st := by
  unfold serThematicBreak
  simp only [← (S.breaks hv).1, ← (S.breaks hv).2]

theorem codeBlock_info {i : List Char} (h : trim i ≠ []) : (parseCodeInfo i).1 ≠ [] ∧ (parseCodeInfo i).2.1 ≠ [] := by
  have e : (parseCodeInfo i) = ((splitWs (trim i)).headD [], trim i, (splitWs (trim i)).any (· = noFormatKeyword)) := by
    unfold parseCodeInfo
    simp only
    rw [if_neg h]
  rw [e]
  refine ⟨?_, h⟩
  have h2 : splitWs (trim i) ≠ [] := by rw [splitWs_trim]; exact splitWs_ne_nil h
  have h3 : [] ∉ splitWs (trim i) := wordsGo_no_nil (trim i) []
  cases hw : splitWs (trim i) with
  | nil => exact absurd hw h2
  | cons w ws =>
    rw [hw] at h3
    intro hn
    exact h3 (by have : w = [] := hn
                 rw [this]; exact List.mem_cons_self)

theorem code_same (S : SameFor V cx.opts o) {info literal : List Char} (hv : V (.codeBlock info literal)) :
    codeLanguage { cx with opts := o } info = codeLanguage cx info ∧ outputInfo { cx with opts := o } info = outputInfo cx info := by
  by_cases hi : trim info = []
  · have := S.language ⟨info, literal, hv, hi⟩
    simp only [codeLanguage, outputInfo, this, and_self]
  · have := codeBlock_info hi
    simp only [codeLanguage, outputInfo, this.1, this.2, if_false, false_and, and_self]

theorem codeContent_same (S : SameFor V cx.opts o) {info literal : List Char} (hv : V (.codeBlock info literal)) :
    codeContent { cx with opts := o } info literal = codeContent cx info literal := by
  unfold codeContent
  rw [(code_same S hv).1]
  have := (S.code ⟨info, literal, hv⟩).2.2.2
  have e : ∀ l c, tryFormatCode { cx with opts := o } l c = tryFormatCode cx l c := by
    intro l c
    unfold tryFormatCode
    simp only [← this]
  simp only [e]

theorem openFence_same (S : SameFor V cx.opts o) {info literal : List Char} (hv : V (.codeBlock info literal)) (fence : List Char) :
    openFence { cx with opts := o } fence info = openFence cx fence info := by
  unfold openFence
  rw [(code_same S hv).2]
  simp only [← (S.code ⟨info, literal, hv⟩).2.2.1]

theorem serCodeBlock_same (S : SameFor V cx.opts o) {info literal : List Char} (hv : V (.codeBlock info literal)) (st : St) :
    serCodeBlock { cx with opts := o } info literal st = serCodeBlock cx info literal st := by
  have h := S.code ⟨info, literal, hv⟩
  unfold serCodeBlock
  simp only [codeContent_same S hv, codeBlockText, openFence_same S hv, ← h.1, ← h.2.1]

theorem serCodeBlockIndented_same (S : SameFor V cx.opts o) {info literal : List Char} (hv : V (.codeBlock info literal))
    (indent : List Char) (st : St) :
    serCodeBlockIndented { cx with opts := o } info literal indent st = serCodeBlockIndented cx info literal indent st := by
  have h := S.code ⟨info, literal, hv⟩
  unfold serCodeBlockIndented
  simp only [codeContent_same S hv, codeBlockIndentedText, openFence_same S hv, ← h.1, ← h.2.1]

theorem serCodeBlockWithIndent_same (S : SameFor V cx.opts o) {info literal : List Char} (hv : V (.codeBlock info literal))
    (indent : List Char) (st : St) :
    serCodeBlockWithIndent { cx with opts := o } info literal indent st = serCodeBlockWithIndent cx info literal indent st := by
  have h := S.code ⟨info, literal, hv⟩
  unfold serCodeBlockWithIndent
  simp only [codeContent_same S hv, codeBlockWithIndentText, openFence_same S hv, ← h.1, ← h.2.1]

theorem code_allowed {st : St} (ha : ListsFrom V st) {w : Option (List Char)} {t : List Char} :
    ListsFrom V ((addCodeWarning st w).push t) := by
  cases w <;> exact ha

/-! ### Lists -/

theorem listIndentWidth_same (S : SameFor V cx.opts o) {st : St} (ha : ListsFrom V st) (hl : st.listType.isSome = true) :
    listIndentWidth { cx with opts := o } st = listIndentWidth cx st := by
  obtain ⟨t, ht⟩ := Option.isSome_iff_exists.mp hl
  unfold listIndentWidth
  rw [ht]
  cases t with
  | bullet => simp [(S.bullets (ha.1 _ ht)).2.2]
  | ordered => simp [(S.ordered (ha.1 _ ht)).2.2]

theorem markerWidth_same (S : SameFor V cx.opts o) {st : St} (ha : ListsFrom V st) :
    markerWidth { cx with opts := o } st.listType = markerWidth cx st.listType := by
  cases ht : st.listType with
  | none => rfl
  | some t =>
    cases t with
    | bullet => simp [markerWidth, (S.bullets (ha.1 _ ht)).2.1, S.trailing (Or.inl (ha.1 _ ht))]
    | ordered => simp [markerWidth, (S.ordered (ha.1 _ ht)).2.2]

theorem itemMarker_same (S : SameFor V cx.opts o) {st : St} (ha : ListsFrom V st) :
    itemMarker { cx with opts := o } st = itemMarker cx st := by
  unfold itemMarker
  cases ht : st.listType with
  | none => rfl
  | some t =>
    cases t with
    | bullet =>
      have h := S.bullets (ha.1 _ ht)
      simp only [h.1, h.2.1, S.trailing (Or.inl (ha.1 _ ht))]
    | ordered =>
      have h := S.ordered (ha.1 _ ht)
      simp only [h.1, h.2.1, h.2.2]

theorem itemLead_same (S : SameFor V cx.opts o) {st : St} (ha : ListsFrom V st) (task : Option (Option Char)) :
    itemLead { cx with opts := o } task st = itemLead cx task st := by
  unfold itemLead
  simp only [itemMarker_same S ha]
  cases ht : st.listType.isSome with
  | true => simp only [listIndentWidth_same S ha ht]
  | false =>
    have h0 := ha.2.1 (by simpa using ht)
    simp [h0]

theorem itemIndent_same (S : SameFor V cx.opts o) {st : St} (ha : ListsFrom V st) :
    itemIndent { cx with opts := o } st = itemIndent cx st := by
  unfold itemIndent
  simp only [markerWidth_same S ha]
  cases ht : st.listType with
  | none =>
    have h0 := ha.2.1 ht
    simp [h0]
  | some t =>
    simp only [listIndentWidth_same S ha (by rw [ht]; rfl)]
    cases t with
    | bullet => simp only [S.trailing (Or.inl (ha.1 _ ht))]
    | ordered => simp only [(S.ordered (ha.1 _ ht)).2.2]

/-! ### Children -/

/-- The same nodes with the same effects in allowed contexts. -/
inductive KidsSame (V : NodeValue → Prop) : List Kid → List Kid → Prop
  | nil : KidsSame V [] []
  | cons {n : Node} {f g : St → St} {ks ks' : List Kid} (e : ∀ st, ListsFrom V st → f st = g st)
      (a : ∀ st, ListsFrom V st → ListsFrom V (f st)) (hv : ∀ v ∈ kinds n, V v) (t : KidsSame V ks ks') :
      KidsSame V (⟨n, f⟩ :: ks) (⟨n, g⟩ :: ks')

theorem KidsSame.nodes {ks ks' : List Kid} (h : KidsSame V ks ks') : ks.map (·.node) = ks'.map (·.node) := by
  induction h with
  | nil => rfl
  | cons _ _ _ _ ih => simp [ih]

theorem runKids_same {ks ks' : List Kid} (h : KidsSame V ks ks') : ∀ {st : St}, ListsFrom V st →
    runKids ks st = runKids ks' st := by
  induction h with
  | nil => intro st _; rfl
  | @cons n f g ks ks' e a hv t ih =>
    intro st ha
    show runKids ks (f st) = runKids ks' (g st)
    rw [← e st ha]
    exact ih (a st ha)

theorem runKids_allowed {ks ks' : List Kid} (h : KidsSame V ks ks') : ∀ {st : St}, ListsFrom V st →
    ListsFrom V (runKids ks st) := by
  induction h with
  | nil => intro st h; exact h
  | @cons n f g ks ks' e a hv t ih =>
    intro st ha
    exact ih (a st ha)

theorem isItem_count {ks ks' : List Kid} (h : KidsSame V ks ks') :
    (ks.filter fun k => k.node.isItem).length = (ks'.filter fun k => k.node.isItem).length := by
  induction h with
  | nil => rfl
  | @cons n f g ks ks' e a hv t ih =>
    simp only [List.filter_cons]
    split
    · simp only [List.length_cons, ih]
    · exact ih

theorem serList_same {ks ks' : List Kid} (h : KidsSame V ks ks') (type : ListType) (tight : Bool)
    (hv : V (.list type tight)) {st : St} (ha : ListsFrom V st) : serList type tight ks st = serList type tight ks' st := by
  unfold serList
  rw [isItem_count h, runKids_same h]
  refine ⟨?_, ?_, ha.2.2⟩
  · intro t ht
    cases ht
    exact ⟨tight, hv⟩
  · intro h; cases h

theorem serItemChildren_same (S : SameFor V cx.opts o) (indent : List Char) {ks ks' : List Kid} (h : KidsSame V ks ks') :
    ∀ (prev : Option Node) {st : St}, ListsFrom V st →
      serItemChildren { cx with opts := o } indent prev ks' st = serItemChildren cx indent prev ks st := by
  induction h with
  | nil => intro prev st _; rfl
  | @cons n f g ks ks' e a hv t ih =>
    intro prev st ha
    obtain ⟨v, p, cs⟩ := n
    have hv' : V v := hv v (by simp [kinds])
    have hg : ∀ s, g (st.push s) = f (st.push s) := fun s => (e (st.push s) ha).symm
    have hf : ∀ s, ListsFrom V (f (st.push s)) := fun s => a (st.push s) ha
    rw [serItemChildren, serItemChildren]
    have key : serItemChild { cx with opts := o } indent prev ⟨.mk v p cs, g⟩ st = serItemChild cx indent prev ⟨.mk v p cs, f⟩ st ∧
        ListsFrom V (serItemChild cx indent prev ⟨.mk v p cs, f⟩ st) := by
      unfold serItemChild
      cases v <;> simp only [Node.value, hg] <;> first | exact ⟨trivial, hf _⟩ | exact ⟨(e st ha).symm, a st ha⟩ | skip
      case codeBlock info literal =>
        refine ⟨serCodeBlockIndented_same S hv' _ _, ?_⟩
        exact code_allowed (st := st.push _) ha
      case paragraph =>
        cases prev with
        | none => exact ⟨(e st ha).symm, a st ha⟩
        | some q => exact ⟨hg _, hf _⟩
    rw [key.1]
    exact ih _ key.2

theorem getLast_same {ks ks' : List Kid} (h : KidsSame V ks ks') (f : Node → Bool) :
    (ks.getLast?.any fun k => f k.node) = (ks'.getLast?.any fun k => f k.node) := by
  have := h.nodes
  have e : ∀ l : List Kid, (l.getLast?.any fun k => f k.node) = ((l.map (·.node)).getLast?.any f) := by
    intro l
    rw [List.getLast?_map]
    cases l.getLast? <;> rfl
  rw [e, e, this]

theorem serItem_same (S : SameFor V cx.opts o) {ks ks' : List Kid} (h : KidsSame V ks ks') (task : Option (Option Char))
    {st : St} (ha : ListsFrom V st) : serItem { cx with opts := o } task ks' st = serItem cx task ks st := by
  unfold serItem
  simp only
  generalize hs : ({ st with listItemIndex := st.listItemIndex + 1 } : St) = s1
  have ha1 : ListsFrom V s1 := hs ▸ ha
  rw [itemLead_same S ha1]
  generalize hs2 : s1.push (itemLead cx task s1) = s2
  have ha2 : ListsFrom V s2 := hs2 ▸ ha1
  rw [itemIndent_same S ha2]
  have e := serItemChildren_same S (itemIndent cx s2) h none (st := { s2 with listItemIndent := itemIndent cx s2 }) ha2
  rw [e, getLast_same h]

theorem serQuoteChildren_same (sep : List Char) {ks ks' : List Kid} (h : KidsSame V ks ks') : ∀ {st : St}, ListsFrom V st →
    serQuoteChildren sep ks st = serQuoteChildren sep ks' st := by
  induction h with
  | nil => intro st _; rfl
  | @cons n f g ks ks' e a hv t ih =>
    intro st ha
    cases t with
    | nil => exact e st ha
    | cons e' a' hv' t' =>
      rw [serQuoteChildren, serQuoteChildren.eq_def sep (_ :: _ :: _) st]
      · simp only
        rw [← e st ha]
        exact ih (a st ha)
      · simp

theorem serBlockQuote_same {ks ks' : List Kid} (h : KidsSame V ks ks') {st : St} (ha : ListsFrom V st) :
    serBlockQuote ks st = serBlockQuote ks' st := by
  unfold serBlockQuote
  rw [serQuoteChildren_same _ h (st := enterQuote st)]
  refine ⟨?_, fun _ => rfl, ha.2.2⟩
  intro t ht
  cases ht

theorem head_same {ks ks' : List Kid} (h : KidsSame V ks ks') (f : Node → Bool) :
    (ks.head?.any fun k => f k.node) = (ks'.head?.any fun k => f k.node) := by
  cases h <;> rfl

theorem serAlert_same {ks ks' : List Kid} (h : KidsSame V ks ks') (type : AlertType) (p : Pos) {st : St} (ha : ListsFrom V st) :
    serAlert type p ks st = serAlert type p ks' st := by
  unfold serAlert
  simp only
  rw [head_same h fun n => decide (p.startLine + 1 < n.pos.startLine)]
  split <;> exact serBlockQuote_same h ha

theorem serDescriptionList_same {ks ks' : List Kid} (h : KidsSame V ks ks') : ∀ {st : St}, ListsFrom V st →
    serDescriptionList ks st = serDescriptionList ks' st := by
  induction h with
  | nil => intro st _; rfl
  | @cons n f g ks ks' e a hv t ih =>
    intro st ha
    cases t with
    | nil => exact e st ha
    | cons e' a' hv' t' =>
      rw [serDescriptionList, serDescriptionList.eq_def (_ :: _ :: _) st]
      · simp only
        rw [← e st ha]
        exact ih (a st ha)
      · simp

theorem serDetailsChild_same (S : SameFor V cx.opts o) {n : Node} {f g : St → St} (e : ∀ st, ListsFrom V st → f st = g st)
    (a : ∀ st, ListsFrom V st → ListsFrom V (f st)) (hv : ∀ v ∈ kinds n, V v) (bq : List Char) (first : Bool) {st : St}
    (ha : ListsFrom V st) :
    serDetailsChild { cx with opts := o } bq first ⟨n, g⟩ st = serDetailsChild cx bq first ⟨n, f⟩ st ∧
      ListsFrom V (serDetailsChild cx bq first ⟨n, f⟩ st) := by
  obtain ⟨v, p, cs⟩ := n
  have hv' : V v := hv v (by simp [kinds])
  have hg : ∀ s, g (st.push s) = f (st.push s) := fun s => (e (st.push s) ha).symm
  have hf : ∀ s, ListsFrom V (f (st.push s)) := fun s => a (st.push s) ha
  have hp : v = .paragraph → ∀ lead s, ListsFrom V s →
      serDetailsParagraph { cx with opts := o } bq lead cs s = serDetailsParagraph cx bq lead cs s ∧
      ListsFrom V (serDetailsParagraph cx bq lead cs s) := by
    rintro rfl lead s hs
    unfold serDetailsParagraph
    rw [collectInlines_same S cs fun w hw => hv w (by simp [kinds, hw]),
      show ({ cx with opts := o } : Cx).opts.lineWidth = cx.opts.lineWidth from (S.lineWidth (Or.inl hv')).symm]
    refine ⟨rfl, ?_⟩
    obtain ⟨_, e1, _, _, _, e2, e3, _⟩ := ctx_eq (okAt_addReferences (collectInlines cx cs).2 s).ctx
    exact allowed_ctx hs e1 e2 e3
  have hw : ∀ s, ListsFrom V s → withIndent4 ⟨.mk v p cs, g⟩ s = withIndent4 ⟨.mk v p cs, f⟩ s ∧
      ListsFrom V (withIndent4 ⟨.mk v p cs, f⟩ s) := by
    intro s hs
    unfold withIndent4
    simp only
    rw [← e { s with listItemIndent := spaces 4 } hs]
    exact ⟨rfl, a { s with listItemIndent := spaces 4 } hs⟩
  have hcode : ∀ info literal, v = .codeBlock info literal → ∀ ind s, ListsFrom V s →
      serCodeBlockWithIndent { cx with opts := o } info literal ind s = serCodeBlockWithIndent cx info literal ind s ∧
      ListsFrom V (serCodeBlockWithIndent cx info literal ind s) := by
    rintro info literal rfl ind s hs
    refine ⟨serCodeBlockWithIndent_same S hv' _ _, ?_⟩
    exact code_allowed hs
  unfold serDetailsChild
  cases first with
  | true =>
    rw [if_pos rfl, if_pos rfl]
    cases v <;> simp only [Node.value, Node.children, hg] <;> first | exact ⟨trivial, hf _⟩ | exact hw _ ha | skip
    case paragraph => exact hp rfl _ _ ha
    case codeBlock info literal => exact hcode _ _ rfl _ _ ha
    case list t tight =>
      have h1 : ListsFrom V { st.push (bq ++ [':', ' ', ' ', ' ', ' ']) with descriptionDetailsFirstList := true } := ha
      rw [← e _ h1]
      exact ⟨rfl, a _ h1⟩
  | false =>
    rw [if_neg (by simp), if_neg (by simp)]
    cases v <;> simp only [Node.value, Node.children] <;>
      first
      | exact ⟨(e ((st.push ['\n']).push (bq ++ spaces 4)) ha).symm, a ((st.push ['\n']).push (bq ++ spaces 4)) ha⟩
      | exact ⟨hg _, hf _⟩
      | exact hw (st.push ['\n']) ha
      | skip
    case paragraph => exact hp rfl _ _ ha
    case codeBlock info literal => exact hcode _ _ rfl _ _ ha

theorem serDetailsFold_same (S : SameFor V cx.opts o) (bq : List Char) {ks ks' : List Kid} (h : KidsSame V ks ks') :
    ∀ {st : St}, ListsFrom V st →
      ks'.foldl (fun st k => serDetailsChild { cx with opts := o } bq false k st) st =
        ks.foldl (fun st k => serDetailsChild cx bq false k st) st := by
  induction h with
  | nil => intro st _; rfl
  | @cons n f g ks ks' e a hv t ih =>
    intro st ha
    have k := serDetailsChild_same S e a hv bq false ha
    rw [List.foldl_cons, List.foldl_cons, k.1]
    exact ih k.2

theorem serDetails_same (S : SameFor V cx.opts o) {ks ks' : List Kid} (h : KidsSame V ks ks') (hv : V .descriptionDetails)
    {st : St} (ha : ListsFrom V st) : serDetails { cx with opts := o } ks' st = serDetails cx ks st := by
  have ha' : ListsFrom V { st with inDescriptionDetails := true } := ⟨ha.1, ha.2.1, fun _ => hv⟩
  unfold serDetails
  cases h with
  | nil => rfl
  | cons e a hv t =>
    have k := serDetailsChild_same S e a hv (quotePrefix st) true ha'
    simp only
    rw [k.1, serDetailsFold_same S _ t k.2]

theorem isImage_same {ks ks' : List Kid} (h : KidsSame V ks ks') (f : Node → Bool) :
    (ks.any fun k => f k.node) = ks'.any fun k => f k.node := by
  induction h with
  | nil => rfl
  | cons _ _ _ _ ih => simp [ih]

theorem serLink_same (S : SameFor V cx.opts o) {ks ks' : List Kid} (h : KidsSame V ks ks')
    (hk : ∀ v ∈ kindsList (ks.map (·.node)), V v) (p : Pos) (url title : List Char) (nb : Bool) {st : St}
    (ha : ListsFrom V st) : serLink { cx with opts := o } p url title nb ks' st = serLink cx p url title nb ks st := by
  have hr : ∀ s, runKids ks' (st.push s) = runKids ks (st.push s) := fun s => (runKids_same h (st := st.push s) ha).symm
  unfold serLink
  rw [← isImage_same h Node.isImage, ← h.nodes]
  simp only [hr, collectTexts_same S _ hk]
  rfl

theorem serImage_same (S : SameFor V cx.opts o) (p : Pos) (url title : List Char) (cs : List Node)
    (hk : ∀ v ∈ kindsList cs, V v) (st : St) :
    serImage { cx with opts := o } p url title cs st = serImage cx p url title cs st := by
  unfold serImage
  simp only [collectTexts_same S _ hk]
  rfl

theorem footnoteBlocks_same {ks ks' : List Kid} (h : KidsSame V ks ks') : ∀ (first : Bool) (acc : List Char) {st : St},
    ListsFrom V st → footnoteBlocks first ks acc st = footnoteBlocks first ks' acc st := by
  induction h with
  | nil => intro first acc st _; rfl
  | @cons n f g ks ks' e a hv t ih =>
    intro first acc st ha
    have e1 := e { st with output := [] } ha
    have a1 := a { st with output := [] } ha
    have step : ∀ (k : Kid) (ks : List Kid) (r : St), k.act { st with output := [] } = r →
        footnoteBlocks first (k :: ks) acc st = footnoteBlocks false ks
          (acc ++ (if !first && trimEnd r.output ≠ [] then ['\n', '\n'] else []) ++ trimEnd r.output)
          { r with output := st.output } := by
      rintro k ks r rfl
      rfl
    rw [step ⟨n, f⟩ ks _ rfl, step ⟨n, g⟩ ks' _ e1.symm]
    exact ih _ _ a1

theorem serFootnoteDefinition_same (S : SameFor V cx.opts o) {ks ks' : List Kid} (h : KidsSame V ks ks')
    (hk : ∀ v ∈ kindsList (ks.map (·.node)), V v) (name : List Char) {st : St} (ha : ListsFrom V st) :
    serFootnoteDefinition { cx with opts := o } name ks' st = serFootnoteDefinition cx name ks st := by
  unfold serFootnoteDefinition
  rw [← h.nodes]
  simp only [collectInlines_same S _ hk]
  rw [footnoteBlocks_same h true [] (st := { st with footnotes := { st.footnotes with
    collecting := true, currentReferenceLine := (st.footnotes.referenceLines.lookup name).getD 0 } }) ha]

theorem kinds_child {n : Node} : ∀ {cs : List Node}, n ∈ cs → ∀ v ∈ kinds n, v ∈ kindsList cs
  | [], h, _, _ => by cases h
  | c :: cs, h, v, hv => by
    rw [kindsList, List.mem_append]
    rcases List.mem_cons.mp h with rfl | h
    · exact Or.inl hv
    · exact Or.inr (kinds_child h v hv)

theorem kinds_children (n : Node) : ∀ v ∈ kindsList n.children, v ∈ kinds n := by
  intro v hv
  cases n
  rw [kinds]
  exact List.mem_cons_of_mem _ hv

theorem serTable_same (S : SameFor V cx.opts o) (p : Pos) (aligns : List Align) (rows : List Node)
    (hk : ∀ v ∈ kindsList rows, V v) (st : St) :
    serTable { cx with opts := o } p aligns rows st = serTable cx p aligns rows st := by
  have : (rows.map fun r => r.children.map (cellInline { cx with opts := o })) =
      rows.map fun r => r.children.map (cellInline cx) := by
    refine List.map_congr_left fun r hr => List.map_congr_left fun c hc => ?_
    unfold cellInline
    rw [collectInlines_same S c.children fun v hv =>
      hk v (kinds_child hr v (kinds_children r v (kinds_child hc v (kinds_children c v hv))))]
  unfold serTable
  simp only [this]

theorem dispatch_same (S : SameFor V cx.opts o) {ks ks' : List Kid} (h : KidsSame V ks ks') (v : NodeValue) (hv : V v)
    (hd : v ≠ .document) (hk : ∀ v ∈ kindsList (ks.map (·.node)), V v) (p : Pos) (nb : Bool) {st : St} (ha : ListsFrom V st) :
    dispatch { cx with opts := o } v p ks' nb st = dispatch cx v p ks nb st := by
  have hn := h.nodes
  have hr : ∀ s, runKids ks' (st.push s) = runKids ks (st.push s) := fun s => (runKids_same h (st := st.push s) ha).symm
  have hr0 : runKids ks' st = runKids ks st := (runKids_same h ha).symm
  cases v <;> simp only [dispatch, ← hn, hr, hr0] <;> first | rfl | skip
  case document => exact absurd rfl hd
  case heading l => exact serHeading_same S l _ hv hk st
  case list t b => exact (serList_same h t b hv ha).symm
  case codeBlock i l => exact serCodeBlock_same S hv st
  case blockQuote => exact (serBlockQuote_same h ha).symm
  case table al => exact serTable_same S p al _ hk st
  case descriptionList => exact (serDescriptionList_same h ha).symm
  case descriptionDetails => exact serDetails_same S h hv ha
  case alert t title => exact (serAlert_same h t p ha).symm
  case item => exact serItem_same S h none ha
  case taskItem s => exact serItem_same S h (some s) ha
  case paragraph => exact serParagraph_same S p _ hv hk ha
  case thematicBreak => exact serThematicBreak_same S hv st
  case link url title => exact serLink_same S h hk p url title nb ha
  case image url title => exact serImage_same S p url title _ hk st
  case footnoteDefinition name => exact serFootnoteDefinition_same S h hk name ha

mutual
theorem ser_same (S : SameFor V cx.opts o) : ∀ (n : Node) (nb : Bool), wellPlaced n = true → (∀ v ∈ kinds n, V v) →
    ∀ {st : St}, ListsFrom V st → ser { cx with opts := o } n nb st = ser cx n nb st
  | .mk v p cs, nb, h, hk, st, ha => by
    rw [wellPlaced, Bool.and_eq_true, Bool.and_eq_true, decide_eq_true_eq] at h
    simp only [ser]
    exact dispatch_same S (serKids_same S cs h.2 fun w hw => hk w (by simp [kinds, hw])) v (hk v (by simp [kinds])) h.1.1
      (by rw [serKids_nodes]; exact fun w hw => hk w (by simp [kinds, hw])) p nb ha

theorem serKids_same (S : SameFor V cx.opts o) : ∀ (cs : List Node), wellPlacedList cs = true → (∀ v ∈ kindsList cs, V v) →
    KidsSame V (serKids cx cs) (serKids { cx with opts := o } cs)
  | [], _, _ => by simp only [serKids]; exact .nil
  | n :: ns, h, hk => by
    rw [wellPlacedList, Bool.and_eq_true] at h
    simp only [serKids]
    refine .cons (fun st ha => (ser_same S n _ h.1 (fun w hw => hk w (by simp [kindsList, hw])) ha).symm) ?_
      (fun w hw => hk w (by simp [kindsList, hw])) (serKids_same S ns h.2 fun w hw => hk w (by simp [kindsList, hw]))
    intro st ha
    exact allowed_kid ha (ser_ok cx n _ h.1 st)
end

end Hongdown
