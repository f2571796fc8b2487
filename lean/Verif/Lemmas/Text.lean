import Verif.Lemmas.Frame

set_option linter.unusedSimpArgs false

/-!
# What a block writes depends only on its context

Serializing a block from two states which agree on the list, quote and description context
and on the noun lists appends the same text to both outputs.
-/

namespace Hongdown
open Model Spec

/-- What block serializers read of the state. -/
def view (st : St) : St :=
  { st with output := [], pendingReferences := [], emittedReferences := [], footnotes := {},
            warnings := [], panicked := false, skipMode := .none }

/-- From `a` to `b` and from `a'` to `b'` the same text was appended, and the contexts of `b`
and `b'` agree. -/
def Same (a a' b b' : St) : Prop :=
  view b = view b' ∧ ∃ t, b.output = a.output ++ t ∧ b'.output = a'.output ++ t

/-- The function appends the same text wherever the contexts agree. -/
def Par (f : St → St) : Prop := ∀ a a', view a = view a' → Same a a' (f a) (f a')

theorem Par.comp {f g : St → St} (hf : Par f) (hg : Par g) : Par (fun st => g (f st)) := by
  intro a a' h
  obtain ⟨h1, t, h2, h3⟩ := hf a a' h
  obtain ⟨h4, u, h5, h6⟩ := hg _ _ h1
  exact ⟨h4, t ++ u, by rw [h5, h2, List.append_assoc], by rw [h6, h3, List.append_assoc]⟩

theorem Par.dep {β : Type} {F : β → St → St} (r : St → β) (hr : ∀ s, r s = r (view s))
    (h : ∀ b, Par (F b)) : Par (fun st => F (r st) st) := by
  intro a a' hv
  have : r a = r a' := by rw [hr a, hr a', hv]
  simp only [this]
  exact h _ a a' hv

theorem Par.upd {f : St → St} (ho : ∀ s, (f s).output = s.output)
    (hv : ∀ s, view (f s) = view (f (view s))) : Par f := by
  intro a a' h
  exact ⟨by rw [hv a, hv a', h], [], by simp [ho], by simp [ho]⟩

theorem Par.id : Par (fun st => st) := Par.upd (fun _ => rfl) (fun _ => rfl)

theorem Par.push (t : List Char) : Par (fun st => st.push t) :=
  fun _ _ h => ⟨h, t, rfl, rfl⟩

theorem Par.pushOf (r : St → List Char) (hr : ∀ s, r s = r (view s)) :
    Par (fun st => st.push (r st)) := Par.dep (F := fun t st => st.push t) r hr Par.push

theorem Par.congr {f g : St → St} (hg : Par g) (h : ∀ s, f s = g s) : Par f := by
  have : f = g := funext h
  rw [this]; exact hg

theorem Par.addReference (r : Ref) : Par (fun st => addReference st r) := by
  refine Par.upd (fun s => ?_) (fun s => ?_)
  · rw [Model.addReference]; split <;> rfl
  · simp only [Model.addReference]; split <;> rfl

theorem Par.addReferences (rs : List Ref) : Par (fun st => addReferences st rs) := by
  induction rs with
  | nil => exact Par.id
  | cons r rs ih => exact (Par.addReference r).comp ih

theorem Par.codeWarning (w : Option (List Char)) : Par (fun st => addCodeWarning st w) := by
  cases w with
  | none => exact Par.id
  | some m => exact Par.upd (fun _ => rfl) (fun _ => rfl)

/-- A change of context, something, and back. -/
theorem Par.around {g : St → St} (hg : Par g) (enter : St → St) (leave : St → St → St)
    (h1 : ∀ s, (enter s).output = s.output) (h2 : ∀ s, view (enter s) = view (enter (view s)))
    (h3 : ∀ s x, leave s x = leave (view s) x) (h4 : ∀ s x, (leave s x).output = x.output)
    (h5 : ∀ s x, view (leave s x) = view (leave s (view x))) :
    Par (fun st => leave st (g (enter st))) := by
  refine Par.congr (Par.dep (F := fun v st => leave v (g (enter st))) view (fun s => rfl) ?_)
    (fun s => h3 s _)
  intro v
  exact ((Par.upd h1 h2).comp hg).comp (Par.upd (h4 v) (h5 v))

theorem Par.runKids {kids : List Kid} (h : ∀ k ∈ kids, Par k.act) : Par (fun st => runKids kids st) := by
  induction kids with
  | nil => exact Par.id
  | cons k ks ih => exact (h k (by simp)).comp (ih fun k hk => h k (by simp [hk]))

/-! ### The block serializers -/

theorem serHeading_par (cx : Cx) (level : Nat) (cs : List Node) : Par (serHeading cx level cs) := by
  refine Par.congr (Par.dep (F := fun nouns st => (Model.addReferences st (collectTexts cx cs).2).push
    (headingText cx level (if cx.opts.headingSentenceCase then
      toSentenceCase cx.uni nouns (collectTexts cx cs).1 else (collectTexts cx cs).1)))
    (headingNouns cx) (fun _ => rfl) ?_) (fun _ => rfl)
  intro nouns
  exact (Par.addReferences _).comp (Par.push _)

theorem serParagraph_par (cx : Cx) (p : Pos) (cs : List Node) : Par (serParagraph cx p cs) := by
  unfold serParagraph
  cases abbreviationDef cx p with
  | some src => exact Par.push _
  | none =>
    refine Par.comp (Par.addReferences (collectInlines cx cs).2) (g := fun st =>
      if st.listType.isSome then
        st.push (wrapTextFirstLine cx.width (trim (collectInlines cx cs).1) []
          (paragraphContinuation cx st) cx.opts.lineWidth)
      else st.push (wrapText cx.width (collectInlines cx cs).1 (quotePrefix st) cx.opts.lineWidth ++
        ['\n'])) ?_
    refine Par.congr (Par.pushOf (fun st => if st.listType.isSome then
      wrapTextFirstLine cx.width (trim (collectInlines cx cs).1) [] (paragraphContinuation cx st)
        cx.opts.lineWidth
      else wrapText cx.width (collectInlines cx cs).1 (quotePrefix st) cx.opts.lineWidth ++ ['\n'])
      (fun _ => rfl)) (fun s => ?_)
    split <;> rfl

theorem serThematicBreak_par (cx : Cx) : Par (serThematicBreak cx) :=
  Par.pushOf _ fun _ => rfl

theorem serCodeBlock_par (cx : Cx) (info literal : List Char) : Par (serCodeBlock cx info literal) :=
  Par.congr (Par.dep (F := fun q st => (addCodeWarning st (codeContent cx info literal).2).push
    (codeBlockText cx q info (codeContent cx info literal).1)) (fun st => st.inBlockQuote)
    (fun _ => rfl) (fun _ => (Par.codeWarning _).comp (Par.push _))) (fun _ => rfl)

theorem serCodeBlockIndented_par (cx : Cx) (info literal indent : List Char) :
    Par (serCodeBlockIndented cx info literal indent) :=
  Par.congr (Par.dep (F := fun q st => (addCodeWarning st (codeContent cx info literal).2).push
    (codeBlockIndentedText cx q info (codeContent cx info literal).1 indent)) (fun st => st.inBlockQuote)
    (fun _ => rfl) (fun _ => (Par.codeWarning _).comp (Par.push _))) (fun _ => rfl)

theorem serCodeBlockWithIndent_par (cx : Cx) (info literal indent : List Char) :
    Par (serCodeBlockWithIndent cx info literal indent) :=
  (Par.codeWarning (codeContent cx info literal).2).comp (Par.push _)

theorem serTable_par (cx : Cx) (p : Pos) (aligns : List Align) (rows : List Node) :
    Par (serTable cx p aligns rows) := by
  unfold serTable
  split
  · exact Par.id
  · exact ((Par.upd (f := fun st => { st with
        warnings := st.warnings ++ tableWarnings cx.sourceLines p aligns.length })
      (fun _ => rfl) (fun _ => rfl)).comp (Par.addReferences _)).comp
      (Par.pushOf (fun st => tableText cx.width st.inBlockQuote aligns _) (fun _ => rfl))

theorem serList_par {kids : List Kid} (h : ∀ k ∈ kids, Par k.act) (type : ListType) (tight : Bool) :
    Par (serList type tight kids) :=
  Par.around (Par.runKids h)
    (fun st => { st with
      listType := some type
      listTight := tight
      listItemIndex := 0
      listDepth := st.listDepth + 1
      orderedListMaxItems := if type = .ordered then (kids.filter fun k => k.node.isItem).length
        else st.orderedListMaxItems })
    (fun st inner => { inner with
      listDepth := inner.listDepth - 1
      listType := st.listType
      listTight := st.listTight
      listItemIndex := st.listItemIndex
      orderedListMaxItems := st.orderedListMaxItems })
    (fun _ => rfl) (fun _ => rfl) (fun _ _ => rfl) (fun _ _ => rfl) (fun _ _ => rfl)

theorem serItemChild_par (cx : Cx) (indent : List Char) (prev : Option Node) {k : Kid}
    (h : Par k.act) : Par (serItemChild cx indent prev k) := by
  have hq : ∀ (f : List Char → List Char), Par (fun st => k.act (st.push
      (f (if st.inBlockQuote then ['>', ' '] else [])))) := fun f =>
    (Par.pushOf (fun st => f (if st.inBlockQuote then ['>', ' '] else [])) (fun _ => rfl)).comp h
  have hp : ∀ t, Par (fun st => k.act (st.push t)) := fun t => (Par.push t).comp h
  obtain ⟨⟨v, p, cs⟩, act⟩ := k
  unfold serItemChild
  cases v <;> simp only [Node.value] <;> try exact hp _
  all_goals try exact h
  case codeBlock info literal =>
    exact (Par.pushOf (fun st => ['\n', '\n'] ++ (if st.inBlockQuote then ['>', ' '] else []) ++ indent)
      (fun _ => rfl)).comp (serCodeBlockIndented_par cx info literal indent)
  case blockQuote => exact hq fun q => (if prev.isSome then ['\n', '\n'] else ['\n']) ++ q
  case alert => exact hq fun q => (if prev.isSome then ['\n', '\n'] else ['\n']) ++ q
  case paragraph =>
    cases prev with
    | none => exact h
    | some p => exact hq fun q => (if p.isCodeBlock || p.isList then ['\n'] else ['\n', '\n']) ++ q ++ indent

theorem serItemChildren_par (cx : Cx) (indent : List Char) {kids : List Kid}
    (h : ∀ k ∈ kids, Par k.act) : ∀ prev, Par (serItemChildren cx indent prev kids) := by
  induction kids with
  | nil => exact fun _ => Par.congr Par.id fun _ => rfl
  | cons k ks ih =>
    intro prev
    exact Par.congr ((serItemChild_par cx indent prev (h k (by simp))).comp
      (ih (fun k hk => h k (by simp [hk])) (some k.node))) fun _ => rfl

theorem serItem_par (cx : Cx) (task : Option (Option Char)) {kids : List Kid}
    (h : ∀ k ∈ kids, Par k.act) : Par (serItem cx task kids) := by
  have h1 : Par (fun st => { serItemChildren cx (itemIndent cx st) none kids
      { st with listItemIndent := itemIndent cx st } with listItemIndent := st.listItemIndent }) := by
    refine Par.congr (Par.dep (F := fun v st => { serItemChildren cx (itemIndent cx v) none kids
      { st with listItemIndent := itemIndent cx v } with listItemIndent := v.listItemIndent })
      view (fun _ => rfl) ?_) (fun _ => rfl)
    intro v
    exact ((Par.upd (f := fun st => { st with listItemIndent := itemIndent cx v })
      (fun _ => rfl) (fun _ => rfl)).comp (serItemChildren_par cx _ h none)).comp
      (Par.upd (f := fun st => { st with listItemIndent := v.listItemIndent })
        (fun _ => rfl) (fun _ => rfl))
  have h2 : Par (fun st => (if (kids.getLast?.any fun k => endsLine k.node) then st
      else st.push ['\n'])) := by
    split
    · exact Par.id
    · exact Par.push _
  exact Par.congr ((((Par.upd (f := fun st => { st with listItemIndex := st.listItemIndex + 1 })
    (fun _ => rfl) (fun _ => rfl)).comp (Par.pushOf (itemLead cx task) (fun _ => rfl))).comp h1).comp
    h2) (fun _ => rfl)

theorem serQuoteChildren_par (sep : List Char) {kids : List Kid} (h : ∀ k ∈ kids, Par k.act) :
    Par (serQuoteChildren sep kids) := by
  induction kids with
  | nil => exact Par.congr Par.id fun _ => rfl
  | cons k ks ih =>
    cases ks with
    | nil => exact Par.congr (h k (by simp)) fun _ => by rw [serQuoteChildren]
    | cons k' ks =>
      exact Par.congr (((h k (by simp)).comp (Par.push sep)).comp
        (ih fun k hk => h k (by simp [hk]))) fun _ => by rw [serQuoteChildren.eq_3 _ _ _ _ (by simp)]

theorem serBlockQuote_par {kids : List Kid} (h : ∀ k ∈ kids, Par k.act) :
    Par (serBlockQuote kids) := by
  refine Par.congr (Par.dep (F := fun v st => exitQuote v (serQuoteChildren
    (v.listItemIndent ++ v.blockquotePrefix ++ ['>', '\n']) kids (enterQuote st)))
    view (fun _ => rfl) ?_) (fun _ => rfl)
  intro v
  exact ((Par.upd (f := enterQuote) (fun _ => rfl) (fun _ => rfl)).comp
    (serQuoteChildren_par _ h)).comp (Par.upd (f := exitQuote v) (fun _ => rfl) (fun _ => rfl))

theorem serAlert_par (type : AlertType) (p : Pos) {kids : List Kid} (h : ∀ k ∈ kids, Par k.act) :
    Par (serAlert type p kids) := by
  refine Par.congr (Par.dep (F := fun lead st => serBlockQuote kids
    (if (kids.head?.any fun k => p.startLine + 1 < k.node.pos.startLine) then
      (st.push (lead ++ ['>', ' ', '[', '!'] ++ alertName type ++ [']', '\n'])).push (lead ++ ['>', '\n'])
      else st.push (lead ++ ['>', ' ', '[', '!'] ++ alertName type ++ [']', '\n'])))
    (fun st => st.listItemIndent ++ st.blockquotePrefix) (fun _ => rfl) ?_) (fun _ => rfl)
  intro lead
  cases kids.head?.any fun k => p.startLine + 1 < k.node.pos.startLine <;>
    refine Par.comp ?_ (serBlockQuote_par h)
  rotate_left
  · exact (Par.push _).comp (Par.push _)
  · exact Par.push _

theorem serDetailsParagraph_par (cx : Cx) (bq lead : List Char) (cs : List Node) :
    Par (serDetailsParagraph cx bq lead cs) := (Par.addReferences _).comp (Par.push _)

theorem withIndent4_par {k : Kid} (h : Par k.act) : Par (withIndent4 k) :=
  Par.around h (fun st => { st with listItemIndent := spaces 4 })
    (fun st x => { x with listItemIndent := st.listItemIndent })
    (fun _ => rfl) (fun _ => rfl) (fun _ _ => rfl) (fun _ _ => rfl) (fun _ _ => rfl)

theorem serDetailsChild_par (cx : Cx) (bq : List Char) (first : Bool) {k : Kid} (h : Par k.act) :
    Par (serDetailsChild cx bq first k) := by
  have hw := withIndent4_par h
  have hp : ∀ t, Par (fun st => k.act (st.push t)) := fun t => (Par.push t).comp h
  have hpw : ∀ t, Par (fun st => withIndent4 k (st.push t)) := fun t => (Par.push t).comp hw
  have hl : Par (fun st => ({ k.act { st with descriptionDetailsFirstList := true } with
      descriptionDetailsFirstList := false } : St)) :=
    Par.around h (fun st => { st with descriptionDetailsFirstList := true })
      (fun _ x => { x with descriptionDetailsFirstList := false })
      (fun _ => rfl) (fun _ => rfl) (fun _ _ => rfl) (fun _ _ => rfl) (fun _ _ => rfl)
  have hc : ∀ info literal, Par (fun st => serCodeBlockWithIndent cx info literal (bq ++ spaces 4) st) :=
    fun info literal => serCodeBlockWithIndent_par cx info literal _
  unfold serDetailsChild
  cases first
  · simp only [Bool.false_eq_true, if_false]
    obtain ⟨⟨v, p, cs⟩, act⟩ := k
    cases v <;> simp only [Node.value] <;> try first
      | exact (Par.push ['\n']).comp (hp _)
      | exact (Par.push ['\n']).comp hw
      | exact (Par.push ['\n']).comp h
    case paragraph => exact (Par.push ['\n']).comp (serDetailsParagraph_par cx _ _ cs)
    case codeBlock info literal =>
      exact (Par.push ['\n']).comp ((Par.push (bq ++ spaces 4)).comp (hc info literal))
  · simp only [if_true]
    obtain ⟨⟨v, p, cs⟩, act⟩ := k
    cases v <;> simp only [Node.value] <;> try first | exact hp _ | exact hpw _
    case paragraph => exact serDetailsParagraph_par cx _ _ cs
    case codeBlock info literal => exact (Par.push _).comp (hc info literal)
    case list => exact (Par.push _).comp hl

theorem serDetails_par (cx : Cx) {kids : List Kid} (h : ∀ k ∈ kids, Par k.act) :
    Par (serDetails cx kids) := by
  have hf : ∀ (bq : List Char) (ks : List Kid), (∀ k ∈ ks, Par k.act) →
      Par (fun st => ks.foldl (fun st k => serDetailsChild cx bq false k st) st) := by
    intro bq ks
    induction ks with
    | nil => exact fun _ => Par.id
    | cons k ks ih =>
      intro h
      exact (serDetailsChild_par cx bq false (h k (by simp))).comp (ih fun k hk => h k (by simp [hk]))
  unfold serDetails
  cases kids with
  | nil =>
    exact Par.around Par.id (fun st => { st with inDescriptionDetails := true })
      (fun st x => { x with inDescriptionDetails := st.inDescriptionDetails })
      (fun _ => rfl) (fun _ => rfl) (fun _ _ => rfl) (fun _ _ => rfl) (fun _ _ => rfl)
  | cons k ks =>
    refine Par.congr (Par.dep (F := fun v st => { ks.foldl
      (fun st k => serDetailsChild cx (quotePrefix v) false k st)
        (serDetailsChild cx (quotePrefix v) true k { st with inDescriptionDetails := true }) with
      inDescriptionDetails := v.inDescriptionDetails }) view (fun _ => rfl) ?_) (fun _ => rfl)
    intro v
    exact (((Par.upd (f := fun st => { st with inDescriptionDetails := true }) (fun _ => rfl)
      (fun _ => rfl)).comp (serDetailsChild_par cx _ true (h k (by simp)))).comp
      (hf _ ks fun k hk => h k (by simp [hk]))).comp
      (Par.upd (f := fun st => { st with inDescriptionDetails := v.inDescriptionDetails })
        (fun _ => rfl) (fun _ => rfl))

theorem serDescriptionList_par {kids : List Kid} (h : ∀ k ∈ kids, Par k.act) :
    Par (serDescriptionList kids) := by
  induction kids with
  | nil => exact Par.congr Par.id fun _ => rfl
  | cons k ks ih =>
    cases ks with
    | nil => exact Par.congr (h k (by simp)) fun _ => by rw [serDescriptionList]
    | cons k' ks =>
      refine Par.congr (((h k (by simp)).comp (Par.pushOf (fun st => if st.inBlockQuote then
        st.listItemIndent ++ trimEnd st.blockquotePrefix ++ ['\n'] else ['\n']) (fun _ => rfl))).comp
        (ih fun k hk => h k (by simp [hk]))) fun _ => by
          rw [serDescriptionList.eq_3 _ _ _ (by simp)]

theorem serLink_par (cx : Cx) (p : Pos) (url title : List Char) (nb : Bool) {kids : List Kid}
    (h : ∀ k ∈ kids, Par k.act) : Par (serLink cx p url title nb kids) := by
  have hk := Par.runKids h
  unfold serLink
  cases referenceStyleInfo cx p with
  | some tl =>
    obtain ⟨text, label⟩ := tl
    simp only []
    split
    · exact (((Par.push _).comp hk).comp (Par.push _)).comp (Par.addReference _)
    · exact (Par.addReferences _).comp (Par.push _)
  | none =>
    simp only []
    split
    · exact ((Par.push _).comp hk).comp (Par.push _)
    · split
      · exact Par.push _
      · split
        · exact ((Par.addReferences _).comp (Par.addReferences _)).comp (Par.push _)
        · exact (Par.addReferences _).comp (Par.push _)

theorem serImage_par (cx : Cx) (p : Pos) (url title : List Char) (cs : List Node) :
    Par (serImage cx p url title cs) := by
  unfold serImage
  cases referenceStyleInfo cx p with
  | some tl => exact ((Par.addReferences _).comp (Par.addReferences _)).comp (Par.push _)
  | none => exact (Par.addReferences _).comp (Par.push _)

theorem footnoteBlocks_par {kids : List Kid} (h : ∀ k ∈ kids, Par k.act) :
    ∀ (first : Bool) (acc acc' : List Char) (first' : Bool) (a a' : St), view a = view a' →
      view (footnoteBlocks first kids acc a).2 = view (footnoteBlocks first' kids acc' a').2 ∧
      (footnoteBlocks first kids acc a).2.output = a.output := by
  induction kids with
  | nil => exact fun _ _ _ _ a a' hv => ⟨hv, rfl⟩
  | cons k ks ih =>
    intro first acc acc' first' a a' hv
    rw [footnoteBlocks, footnoteBlocks]
    have h1 := (h k (by simp)) { a with output := [] } { a' with output := [] } hv
    have h2 := ih (fun k hk => h k (by simp [hk])) false
      (acc ++ (if !first && trimEnd (k.act { a with output := [] }).output ≠ [] then ['\n', '\n'] else []) ++
        trimEnd (k.act { a with output := [] }).output)
      (acc' ++ (if !first' && trimEnd (k.act { a' with output := [] }).output ≠ [] then ['\n', '\n'] else []) ++
        trimEnd (k.act { a' with output := [] }).output) false
      { k.act { a with output := [] } with output := a.output }
      { k.act { a' with output := [] } with output := a'.output } h1.1
    exact h2

theorem serFootnoteDefinition_key (cx : Cx) (name : List Char) {kids : List Kid}
    (h : ∀ k ∈ kids, Par k.act) : ∀ a a' : St, view a = view a' →
      view (serFootnoteDefinition cx name kids a) = view (serFootnoteDefinition cx name kids a') ∧
      (serFootnoteDefinition cx name kids a).output = a.output := by
    intro a a' hv
    rw [serFootnoteDefinition, serFootnoteDefinition]
    by_cases hb : hasBlocks (kids.map (·.node)) = true
    · simp only [if_pos hb]
      exact footnoteBlocks_par h true [] [] true
        { a with footnotes := { a.footnotes with
          collecting := true, currentReferenceLine := (a.footnotes.referenceLines.lookup name).getD 0 } }
        { a' with footnotes := { a'.footnotes with
          collecting := true, currentReferenceLine := (a'.footnotes.referenceLines.lookup name).getD 0 } } hv
    · simp only [if_neg hb]
      have := Par.addReferences (collectInlines cx (kids.map (·.node))).2
        { a with footnotes := { a.footnotes with
          collecting := true, currentReferenceLine := (a.footnotes.referenceLines.lookup name).getD 0 } }
        { a' with footnotes := { a'.footnotes with
          collecting := true, currentReferenceLine := (a'.footnotes.referenceLines.lookup name).getD 0 } } hv
      have ho : ∀ (rs : List Ref) (s : St), (Model.addReferences s rs).output = s.output := by
        intro rs
        induction rs with
        | nil => exact fun _ => rfl
        | cons r rs ih =>
          intro s
          show (Model.addReferences (Model.addReference s r) rs).output = _
          rw [ih, Model.addReference]
          split <;> rfl
      exact ⟨this.1, ho _ _⟩

theorem serFootnoteDefinition_par (cx : Cx) (name : List Char) {kids : List Kid}
    (h : ∀ k ∈ kids, Par k.act) : Par (serFootnoteDefinition cx name kids) := by
  have key := serFootnoteDefinition_key cx name h
  intro a a' hv
  exact ⟨(key a a' hv).1, [], by simp [(key a a' hv).2], by simp [(key a' a hv.symm).2]⟩

/-! ### All nodes -/

theorem dispatch_par {cx : Cx} {kids : List Kid} (h : ∀ k ∈ kids, Par k.act) (v : NodeValue)
    (p : Pos) (nb : Bool) (hv : v ≠ .document) : Par (dispatch cx v p kids nb) := by
  have hr := Par.runKids h
  cases v
  case document => exact absurd rfl hv
  case list type tight => exact serList_par h _ _
  case item => exact serItem_par cx _ h
  case taskItem s => exact serItem_par cx _ h
  case heading => exact serHeading_par _ _ _
  case paragraph => exact serParagraph_par _ _ _
  case table => exact serTable_par _ _ _ _
  case link => exact serLink_par cx _ _ _ _ h
  case image => exact serImage_par _ _ _ _ _
  case footnoteDefinition => exact serFootnoteDefinition_par cx _ h
  case codeBlock info literal => exact serCodeBlock_par _ _ _
  case blockQuote => exact serBlockQuote_par h
  case alert => exact serAlert_par _ _ h
  case descriptionList => exact serDescriptionList_par h
  case descriptionDetails => exact serDetails_par cx h
  case thematicBreak => exact serThematicBreak_par cx
  case emph => exact ((Par.push _).comp hr).comp (Par.push _)
  case strong => exact ((Par.push _).comp hr).comp (Par.push _)
  case footnoteReference name =>
    exact (Par.upd (f := recordReferenceLine name p.startLine) (fun _ => rfl) (fun _ => rfl)).comp
      (Par.push _)
  all_goals first | exact Par.push _ | exact Par.id | exact hr

mutual
/-- No node below is a document. -/
theorem ser_par (cx : Cx) : ∀ (n : Node) (nb : Bool), wellPlaced n = true → Par (ser cx n nb)
  | .mk v p cs, nb, h => by
    rw [wellPlaced, Bool.and_eq_true, Bool.and_eq_true, decide_eq_true_eq] at h
    exact Par.congr (dispatch_par (cx := cx) (serKids_par cx cs h.2) v p nb h.1.1) fun _ => by
      simp only [ser]

theorem serKids_par (cx : Cx) : ∀ (cs : List Node), wellPlacedList cs = true →
    ∀ k ∈ serKids cx cs, Par k.act
  | [], _, k, hk => by simp [serKids] at hk
  | n :: ns, h, k, hk => by
    rw [wellPlacedList, Bool.and_eq_true] at h
    rw [serKids] at hk
    rcases List.mem_cons.mp hk with rfl | hk
    · exact ser_par cx n _ h.1
    · exact serKids_par cx ns h.2 k hk
end

end Hongdown
