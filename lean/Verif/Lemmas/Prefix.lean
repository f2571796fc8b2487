import Verif.Lemmas.Text
import Verif.Lemmas.Names
import Verif.Lemmas.Section

set_option linter.unusedSimpArgs false

/-!
# Sections are serialized independently

Serializing a block without footnote definitions from two states which agree on all but the output, the
labels already defined, the warnings and the lines of footnote references leads to two states which agree
in the same way.
-/

namespace Hongdown
open Model Spec

/-- The state without the output, the labels defined, the warnings and the lines of footnote references. -/
def unmarked (st : St) : St :=
  { st with output := [], emittedReferences := [], warnings := [], panicked := false, footnotes := { st.footnotes with referenceLines := [] } }

/-- All about footnotes but the lines of the references to them. -/
def waiting (st : St) : FootnoteSet := { st.footnotes with referenceLines := [] }

/-- The function does not read the warnings, and leaves the footnotes alone. -/
def Deaf (f : St → St) : Prop :=
  ∀ a a', unmarked a = unmarked a' → unmarked (f a) = unmarked (f a') ∧
    (a.footnotes.collecting = false → waiting (f a) = waiting a)

theorem collecting_of {a b : St} (h : waiting b = waiting a) (ha : a.footnotes.collecting = false) :
    b.footnotes.collecting = false := by
  have e := congrArg FootnoteSet.collecting h
  exact Eq.trans e ha

theorem Deaf.comp {f g : St → St} (hf : Deaf f) (hg : Deaf g) : Deaf (fun st => g (f st)) := by
  intro a a' h
  obtain ⟨h1, h2⟩ := hf a a' h
  obtain ⟨h3, h4⟩ := hg _ _ h1
  exact ⟨h3, fun hc => (h4 (collecting_of (h2 hc) hc)).trans (h2 hc)⟩

theorem Deaf.dep {β : Type} {F : β → St → St} (r : St → β) (hr : ∀ s, r s = r (unmarked s))
    (h : ∀ b, Deaf (F b)) : Deaf (fun st => F (r st) st) := by
  intro a a' hv
  have : r a = r a' := by rw [hr a, hr a', hv]
  simp only [this]
  exact h _ a a' hv

theorem Deaf.upd {f : St → St} (ho : ∀ s, waiting (f s) = waiting s)
    (hv : ∀ s, unmarked (f s) = unmarked (f (unmarked s))) : Deaf f := by
  intro a a' h
  exact ⟨by rw [hv a, hv a', h], fun _ => ho a⟩

theorem Deaf.id : Deaf (fun st => st) := Deaf.upd (fun _ => rfl) (fun _ => rfl)

theorem Deaf.push (t : List Char) : Deaf (fun st => st.push t) := Deaf.upd (fun _ => rfl) (fun _ => rfl)

theorem Deaf.pushOf (r : St → List Char) (hr : ∀ s, r s = r (unmarked s)) :
    Deaf (fun st => st.push (r st)) := Deaf.dep (F := fun t st => st.push t) r hr Deaf.push

theorem Deaf.congr {f g : St → St} (hg : Deaf g) (h : ∀ s, f s = g s) : Deaf f := by
  have : f = g := funext h
  rw [this]; exact hg

theorem Deaf.addReference (r : Ref) : Deaf (fun st => addReference st r) := by
  have hv : ∀ s : St, unmarked (Model.addReference s r) = unmarked (Model.addReference (unmarked s) r) := by
    intro s
    simp only [Model.addReference]
    split
    · rw [if_pos (by assumption)]; rfl
    · rw [if_neg (by assumption)]; rfl
  intro a a' h
  refine ⟨by rw [hv a, hv a', h], fun hc => ?_⟩
  have : Model.addReference a r = { a with pendingReferences := mapInsert r.label r a.pendingReferences } := by
    unfold Model.addReference
    rw [if_neg (by simp [hc])]
  show waiting (Model.addReference a r) = _
  rw [this]
  rfl

theorem Deaf.addReferences (rs : List Ref) : Deaf (fun st => addReferences st rs) := by
  induction rs with
  | nil => exact Deaf.id
  | cons r rs ih => exact (Deaf.addReference r).comp ih

theorem Deaf.codeWarning (w : Option (List Char)) : Deaf (fun st => addCodeWarning st w) := by
  cases w with
  | none => exact Deaf.id
  | some m => exact Deaf.upd (fun _ => rfl) (fun _ => rfl)

/-- A change of context, something, and back. -/
theorem Deaf.around {g : St → St} (hg : Deaf g) (enter : St → St) (leave : St → St → St)
    (h1 : ∀ s, waiting (enter s) = waiting s) (h2 : ∀ s, unmarked (enter s) = unmarked (enter (unmarked s)))
    (h3 : ∀ s x, leave s x = leave (unmarked s) x) (h4 : ∀ s x, waiting (leave s x) = waiting x)
    (h5 : ∀ s x, unmarked (leave s x) = unmarked (leave s (unmarked x))) :
    Deaf (fun st => leave st (g (enter st))) := by
  refine Deaf.congr (Deaf.dep (F := fun v st => leave v (g (enter st))) unmarked (fun s => rfl) ?_)
    (fun s => h3 s _)
  intro v
  exact ((Deaf.upd h1 h2).comp hg).comp (Deaf.upd (h4 v) (h5 v))

theorem Deaf.runKids {kids : List Kid} (h : ∀ k ∈ kids, Deaf k.act) : Deaf (fun st => runKids kids st) := by
  induction kids with
  | nil => exact Deaf.id
  | cons k ks ih => exact (h k (by simp)).comp (ih fun k hk => h k (by simp [hk]))

/-! ### The block serializers -/

theorem serHeading_deaf (cx : Cx) (level : Nat) (cs : List Node) : Deaf (serHeading cx level cs) := by
  refine Deaf.congr (Deaf.dep (F := fun nouns st => (Model.addReferences st (collectTexts cx cs).2).push
    (headingText cx level (if cx.opts.headingSentenceCase then
      toSentenceCase cx.uni nouns (collectTexts cx cs).1 else (collectTexts cx cs).1)))
    (headingNouns cx) (fun _ => rfl) ?_) (fun _ => rfl)
  intro nouns
  exact (Deaf.addReferences _).comp (Deaf.push _)

theorem serParagraph_deaf (cx : Cx) (p : Pos) (cs : List Node) : Deaf (serParagraph cx p cs) := by
  unfold serParagraph
  cases abbreviationDef cx p with
  | some src => exact Deaf.push _
  | none =>
    refine Deaf.comp (Deaf.addReferences (collectInlines cx cs).2) (g := fun st =>
      if st.listType.isSome then
        st.push (wrapTextFirstLine cx.width (trim (collectInlines cx cs).1) []
          (paragraphContinuation cx st) cx.opts.lineWidth)
      else st.push (wrapText cx.width (collectInlines cx cs).1 (quotePrefix st) cx.opts.lineWidth ++
        ['\n'])) ?_
    refine Deaf.congr (Deaf.pushOf (fun st => if st.listType.isSome then
      wrapTextFirstLine cx.width (trim (collectInlines cx cs).1) [] (paragraphContinuation cx st)
        cx.opts.lineWidth
      else wrapText cx.width (collectInlines cx cs).1 (quotePrefix st) cx.opts.lineWidth ++ ['\n'])
      (fun _ => rfl)) (fun s => ?_)
    split <;> rfl

theorem serThematicBreak_deaf (cx : Cx) : Deaf (serThematicBreak cx) :=
  Deaf.pushOf _ fun _ => rfl

theorem serCodeBlock_deaf (cx : Cx) (info literal : List Char) : Deaf (serCodeBlock cx info literal) :=
  Deaf.congr (Deaf.dep (F := fun q st => (addCodeWarning st (codeContent cx info literal).2).push
    (codeBlockText cx q info (codeContent cx info literal).1)) (fun st => st.inBlockQuote)
    (fun _ => rfl) (fun _ => (Deaf.codeWarning _).comp (Deaf.push _))) (fun _ => rfl)

theorem serCodeBlockIndented_deaf (cx : Cx) (info literal indent : List Char) :
    Deaf (serCodeBlockIndented cx info literal indent) :=
  Deaf.congr (Deaf.dep (F := fun q st => (addCodeWarning st (codeContent cx info literal).2).push
    (codeBlockIndentedText cx q info (codeContent cx info literal).1 indent)) (fun st => st.inBlockQuote)
    (fun _ => rfl) (fun _ => (Deaf.codeWarning _).comp (Deaf.push _))) (fun _ => rfl)

theorem serCodeBlockWithIndent_deaf (cx : Cx) (info literal indent : List Char) :
    Deaf (serCodeBlockWithIndent cx info literal indent) :=
  (Deaf.codeWarning (codeContent cx info literal).2).comp (Deaf.push _)

theorem serTable_deaf (cx : Cx) (p : Pos) (aligns : List Align) (rows : List Node) :
    Deaf (serTable cx p aligns rows) := by
  unfold serTable
  split
  · exact Deaf.id
  · exact ((Deaf.upd (f := fun st => { st with
        warnings := st.warnings ++ tableWarnings cx.sourceLines p aligns.length })
      (fun _ => rfl) (fun _ => rfl)).comp (Deaf.addReferences _)).comp
      (Deaf.pushOf (fun st => tableText cx.width st.inBlockQuote aligns _) (fun _ => rfl))

theorem serList_deaf {kids : List Kid} (h : ∀ k ∈ kids, Deaf k.act) (type : ListType) (tight : Bool) :
    Deaf (serList type tight kids) :=
  Deaf.around (Deaf.runKids h)
    (fun st => { st with
      listType := some type
      listTight := tight
      listItemIndex := 0
      listDepth := st.listDepth + 1
      orderedListMaxItems := if type = .ordered then (kids.filter fun k => k.node.isItem).length
        else st.orderedListMaxItems })
    (fun st inner => { inner with
      listDepth := inner.listDepth - 1
      listType := st.listType
      listTight := st.listTight
      listItemIndex := st.listItemIndex
      orderedListMaxItems := st.orderedListMaxItems })
    (fun _ => rfl) (fun _ => rfl) (fun _ _ => rfl) (fun _ _ => rfl) (fun _ _ => rfl)

theorem serItemChild_deaf (cx : Cx) (indent : List Char) (prev : Option Node) {k : Kid}
    (h : Deaf k.act) : Deaf (serItemChild cx indent prev k) := by
  have hq : ∀ (f : List Char → List Char), Deaf (fun st => k.act (st.push
      (f (if st.inBlockQuote then ['>', ' '] else [])))) := fun f =>
    (Deaf.pushOf (fun st => f (if st.inBlockQuote then ['>', ' '] else [])) (fun _ => rfl)).comp h
  have hp : ∀ t, Deaf (fun st => k.act (st.push t)) := fun t => (Deaf.push t).comp h
  obtain ⟨⟨v, p, cs⟩, act⟩ := k
  unfold serItemChild
  cases v <;> simp only [Node.value] <;> try exact hp _
  all_goals try exact h
  case codeBlock info literal =>
    exact (Deaf.pushOf (fun st => ['\n', '\n'] ++ (if st.inBlockQuote then ['>', ' '] else []) ++ indent)
      (fun _ => rfl)).comp (serCodeBlockIndented_deaf cx info literal indent)
  case blockQuote => exact hq fun q => (if prev.isSome then ['\n', '\n'] else ['\n']) ++ q
  case alert => exact hq fun q => (if prev.isSome then ['\n', '\n'] else ['\n']) ++ q
  case paragraph =>
    cases prev with
    | none => exact h
    | some p => exact hq fun q => (if p.isCodeBlock || p.isList then ['\n'] else ['\n', '\n']) ++ q ++ indent

theorem serItemChildren_deaf (cx : Cx) (indent : List Char) {kids : List Kid}
    (h : ∀ k ∈ kids, Deaf k.act) : ∀ prev, Deaf (serItemChildren cx indent prev kids) := by
  induction kids with
  | nil => exact fun _ => Deaf.congr Deaf.id fun _ => rfl
  | cons k ks ih =>
    intro prev
    exact Deaf.congr ((serItemChild_deaf cx indent prev (h k (by simp))).comp
      (ih (fun k hk => h k (by simp [hk])) (some k.node))) fun _ => rfl

theorem serItem_deaf (cx : Cx) (task : Option (Option Char)) {kids : List Kid}
    (h : ∀ k ∈ kids, Deaf k.act) : Deaf (serItem cx task kids) := by
  have h1 : Deaf (fun st => { serItemChildren cx (itemIndent cx st) none kids
      { st with listItemIndent := itemIndent cx st } with listItemIndent := st.listItemIndent }) := by
    refine Deaf.congr (Deaf.dep (F := fun v st => { serItemChildren cx (itemIndent cx v) none kids
      { st with listItemIndent := itemIndent cx v } with listItemIndent := v.listItemIndent })
      unmarked (fun _ => rfl) ?_) (fun _ => rfl)
    intro v
    exact ((Deaf.upd (f := fun st => { st with listItemIndent := itemIndent cx v })
      (fun _ => rfl) (fun _ => rfl)).comp (serItemChildren_deaf cx _ h none)).comp
      (Deaf.upd (f := fun st => { st with listItemIndent := v.listItemIndent })
        (fun _ => rfl) (fun _ => rfl))
  have h2 : Deaf (fun st => (if (kids.getLast?.any fun k => endsLine k.node) then st
      else st.push ['\n'])) := by
    split
    · exact Deaf.id
    · exact Deaf.push _
  exact Deaf.congr ((((Deaf.upd (f := fun st => { st with listItemIndex := st.listItemIndex + 1 })
    (fun _ => rfl) (fun _ => rfl)).comp (Deaf.pushOf (itemLead cx task) (fun _ => rfl))).comp h1).comp
    h2) (fun _ => rfl)

theorem serQuoteChildren_deaf (sep : List Char) {kids : List Kid} (h : ∀ k ∈ kids, Deaf k.act) :
    Deaf (serQuoteChildren sep kids) := by
  induction kids with
  | nil => exact Deaf.congr Deaf.id fun _ => rfl
  | cons k ks ih =>
    cases ks with
    | nil => exact Deaf.congr (h k (by simp)) fun _ => by rw [serQuoteChildren]
    | cons k' ks =>
      exact Deaf.congr (((h k (by simp)).comp (Deaf.push sep)).comp
        (ih fun k hk => h k (by simp [hk]))) fun _ => by rw [serQuoteChildren.eq_3 _ _ _ _ (by simp)]

theorem serBlockQuote_deaf {kids : List Kid} (h : ∀ k ∈ kids, Deaf k.act) :
    Deaf (serBlockQuote kids) := by
  refine Deaf.congr (Deaf.dep (F := fun v st => exitQuote v (serQuoteChildren
    (v.listItemIndent ++ v.blockquotePrefix ++ ['>', '\n']) kids (enterQuote st)))
    unmarked (fun _ => rfl) ?_) (fun _ => rfl)
  intro v
  exact ((Deaf.upd (f := enterQuote) (fun _ => rfl) (fun _ => rfl)).comp
    (serQuoteChildren_deaf _ h)).comp (Deaf.upd (f := exitQuote v) (fun _ => rfl) (fun _ => rfl))

theorem serAlert_deaf (type : AlertType) (p : Pos) {kids : List Kid} (h : ∀ k ∈ kids, Deaf k.act) :
    Deaf (serAlert type p kids) := by
  refine Deaf.congr (Deaf.dep (F := fun lead st => serBlockQuote kids
    (if (kids.head?.any fun k => p.startLine + 1 < k.node.pos.startLine) then
      (st.push (lead ++ ['>', ' ', '[', '!'] ++ alertName type ++ [']', '\n'])).push (lead ++ ['>', '\n'])
      else st.push (lead ++ ['>', ' ', '[', '!'] ++ alertName type ++ [']', '\n'])))
    (fun st => st.listItemIndent ++ st.blockquotePrefix) (fun _ => rfl) ?_) (fun _ => rfl)
  intro lead
  cases kids.head?.any fun k => p.startLine + 1 < k.node.pos.startLine <;>
    refine Deaf.comp ?_ (serBlockQuote_deaf h)
  rotate_left
  · exact (Deaf.push _).comp (Deaf.push _)
  · exact Deaf.push _

theorem serDetailsParagraph_deaf (cx : Cx) (bq lead : List Char) (cs : List Node) :
    Deaf (serDetailsParagraph cx bq lead cs) := (Deaf.addReferences _).comp (Deaf.push _)

theorem withIndent4_deaf {k : Kid} (h : Deaf k.act) : Deaf (withIndent4 k) :=
  Deaf.around h (fun st => { st with listItemIndent := spaces 4 })
    (fun st x => { x with listItemIndent := st.listItemIndent })
    (fun _ => rfl) (fun _ => rfl) (fun _ _ => rfl) (fun _ _ => rfl) (fun _ _ => rfl)

theorem serDetailsChild_deaf (cx : Cx) (bq : List Char) (first : Bool) {k : Kid} (h : Deaf k.act) :
    Deaf (serDetailsChild cx bq first k) := by
  have hw := withIndent4_deaf h
  have hp : ∀ t, Deaf (fun st => k.act (st.push t)) := fun t => (Deaf.push t).comp h
  have hpw : ∀ t, Deaf (fun st => withIndent4 k (st.push t)) := fun t => (Deaf.push t).comp hw
  have hl : Deaf (fun st => ({ k.act { st with descriptionDetailsFirstList := true } with
      descriptionDetailsFirstList := false } : St)) :=
    Deaf.around h (fun st => { st with descriptionDetailsFirstList := true })
      (fun _ x => { x with descriptionDetailsFirstList := false })
      (fun _ => rfl) (fun _ => rfl) (fun _ _ => rfl) (fun _ _ => rfl) (fun _ _ => rfl)
  have hc : ∀ info literal, Deaf (fun st => serCodeBlockWithIndent cx info literal (bq ++ spaces 4) st) :=
    fun info literal => serCodeBlockWithIndent_deaf cx info literal _
  unfold serDetailsChild
  cases first
  · simp only [Bool.false_eq_true, if_false]
    obtain ⟨⟨v, p, cs⟩, act⟩ := k
    cases v <;> simp only [Node.value] <;> try first
      | exact (Deaf.push ['\n']).comp (hp _)
      | exact (Deaf.push ['\n']).comp hw
      | exact (Deaf.push ['\n']).comp h
    case paragraph => exact (Deaf.push ['\n']).comp (serDetailsParagraph_deaf cx _ _ cs)
    case codeBlock info literal =>
      exact (Deaf.push ['\n']).comp ((Deaf.push (bq ++ spaces 4)).comp (hc info literal))
  · simp only [if_true]
    obtain ⟨⟨v, p, cs⟩, act⟩ := k
    cases v <;> simp only [Node.value] <;> try first | exact hp _ | exact hpw _
    case paragraph => exact serDetailsParagraph_deaf cx _ _ cs
    case codeBlock info literal => exact (Deaf.push _).comp (hc info literal)
    case list => exact (Deaf.push _).comp hl

theorem serDetails_deaf (cx : Cx) {kids : List Kid} (h : ∀ k ∈ kids, Deaf k.act) :
    Deaf (serDetails cx kids) := by
  have hf : ∀ (bq : List Char) (ks : List Kid), (∀ k ∈ ks, Deaf k.act) →
      Deaf (fun st => ks.foldl (fun st k => serDetailsChild cx bq false k st) st) := by
    intro bq ks
    induction ks with
    | nil => exact fun _ => Deaf.id
    | cons k ks ih =>
      intro h
      exact (serDetailsChild_deaf cx bq false (h k (by simp))).comp (ih fun k hk => h k (by simp [hk]))
  unfold serDetails
  cases kids with
  | nil =>
    exact Deaf.around Deaf.id (fun st => { st with inDescriptionDetails := true })
      (fun st x => { x with inDescriptionDetails := st.inDescriptionDetails })
      (fun _ => rfl) (fun _ => rfl) (fun _ _ => rfl) (fun _ _ => rfl) (fun _ _ => rfl)
  | cons k ks =>
    refine Deaf.congr (Deaf.dep (F := fun v st => { ks.foldl
      (fun st k => serDetailsChild cx (quotePrefix v) false k st)
        (serDetailsChild cx (quotePrefix v) true k { st with inDescriptionDetails := true }) with
      inDescriptionDetails := v.inDescriptionDetails }) unmarked (fun _ => rfl) ?_) (fun _ => rfl)
    intro v
    exact (((Deaf.upd (f := fun st => { st with inDescriptionDetails := true }) (fun _ => rfl)
      (fun _ => rfl)).comp (serDetailsChild_deaf cx _ true (h k (by simp)))).comp
      (hf _ ks fun k hk => h k (by simp [hk]))).comp
      (Deaf.upd (f := fun st => { st with inDescriptionDetails := v.inDescriptionDetails })
        (fun _ => rfl) (fun _ => rfl))

theorem serDescriptionList_deaf {kids : List Kid} (h : ∀ k ∈ kids, Deaf k.act) :
    Deaf (serDescriptionList kids) := by
  induction kids with
  | nil => exact Deaf.congr Deaf.id fun _ => rfl
  | cons k ks ih =>
    cases ks with
    | nil => exact Deaf.congr (h k (by simp)) fun _ => by rw [serDescriptionList]
    | cons k' ks =>
      refine Deaf.congr (((h k (by simp)).comp (Deaf.pushOf (fun st => if st.inBlockQuote then
        st.listItemIndent ++ trimEnd st.blockquotePrefix ++ ['\n'] else ['\n']) (fun _ => rfl))).comp
        (ih fun k hk => h k (by simp [hk]))) fun _ => by
          rw [serDescriptionList.eq_3 _ _ _ (by simp)]

theorem serLink_deaf (cx : Cx) (p : Pos) (url title : List Char) (nb : Bool) {kids : List Kid}
    (h : ∀ k ∈ kids, Deaf k.act) : Deaf (serLink cx p url title nb kids) := by
  have hk := Deaf.runKids h
  unfold serLink
  cases referenceStyleInfo cx p with
  | some tl =>
    obtain ⟨text, label⟩ := tl
    simp only []
    split
    · exact (((Deaf.push _).comp hk).comp (Deaf.push _)).comp (Deaf.addReference _)
    · exact (Deaf.addReferences _).comp (Deaf.push _)
  | none =>
    simp only []
    split
    · exact ((Deaf.push _).comp hk).comp (Deaf.push _)
    · split
      · exact Deaf.push _
      · split
        · exact ((Deaf.addReferences _).comp (Deaf.addReferences _)).comp (Deaf.push _)
        · exact (Deaf.addReferences _).comp (Deaf.push _)

theorem serImage_deaf (cx : Cx) (p : Pos) (url title : List Char) (cs : List Node) :
    Deaf (serImage cx p url title cs) := by
  unfold serImage
  cases referenceStyleInfo cx p with
  | some tl => exact ((Deaf.addReferences _).comp (Deaf.addReferences _)).comp (Deaf.push _)
  | none => exact (Deaf.addReferences _).comp (Deaf.push _)

/-! ### All nodes -/

theorem dispatch_deaf {cx : Cx} {kids : List Kid} (h : ∀ k ∈ kids, Deaf k.act) (v : NodeValue)
    (p : Pos) (nb : Bool) (hv : v ≠ .document)
    (hn : ∀ name, v ≠ .footnoteDefinition name) : Deaf (dispatch cx v p kids nb) := by
  have hr := Deaf.runKids h
  cases v
  case document => exact absurd rfl hv
  case list type tight => exact serList_deaf h _ _
  case item => exact serItem_deaf cx _ h
  case taskItem s => exact serItem_deaf cx _ h
  case heading => exact serHeading_deaf _ _ _
  case paragraph => exact serParagraph_deaf _ _ _
  case table => exact serTable_deaf _ _ _ _
  case link => exact serLink_deaf cx _ _ _ _ h
  case image => exact serImage_deaf _ _ _ _ _
  case footnoteDefinition name => exact absurd rfl (hn name)
  case codeBlock info literal => exact serCodeBlock_deaf _ _ _
  case blockQuote => exact serBlockQuote_deaf h
  case alert => exact serAlert_deaf _ _ h
  case descriptionList => exact serDescriptionList_deaf h
  case descriptionDetails => exact serDetails_deaf cx h
  case thematicBreak => exact serThematicBreak_deaf cx
  case emph => exact ((Deaf.push _).comp hr).comp (Deaf.push _)
  case strong => exact ((Deaf.push _).comp hr).comp (Deaf.push _)
  case footnoteReference name =>
    exact (Deaf.upd (f := recordReferenceLine name p.startLine) (fun _ => rfl) (fun _ => rfl)).comp
      (Deaf.push _)
  all_goals first | exact Deaf.push _ | exact Deaf.id | exact hr

mutual
theorem ser_deaf (cx : Cx) : ∀ (n : Node) (nb : Bool), wellPlaced n = true → noteFree n = true → Deaf (ser cx n nb)
  | .mk v p cs, nb, h, hn => by
    rw [wellPlaced, Bool.and_eq_true, Bool.and_eq_true, decide_eq_true_eq] at h
    rw [noteFree, Bool.and_eq_true] at hn
    refine Deaf.congr (dispatch_deaf (cx := cx) (serKids_deaf cx cs h.2 hn.2) v p nb h.1.1 ?_) fun _ => by
      simp only [ser]
    rintro name rfl
    simp [noteName, Node.value] at hn

theorem serKids_deaf (cx : Cx) : ∀ (cs : List Node), wellPlacedList cs = true → noteFreeList cs = true →
    ∀ k ∈ serKids cx cs, Deaf k.act
  | [], _, _, k, hk => by simp [serKids] at hk
  | n :: ns, h, hn, k, hk => by
    rw [wellPlacedList, Bool.and_eq_true] at h
    rw [noteFreeList, Bool.and_eq_true] at hn
    rw [serKids] at hk
    rcases List.mem_cons.mp hk with rfl | hk
    · exact ser_deaf cx n _ h.1 hn.1
    · exact serKids_deaf cx ns h.2 hn.2 k hk
end

/-! ### The loop over the blocks -/

/-- No footnote waits or was written. -/
def NoNotes (st : St) : Prop := waiting st = {}

theorem NoNotes.of {a b : St} (h : NoNotes a) (hw : waiting b = waiting a) : NoNotes b := hw.trans h

theorem NoNotes.collecting {a : St} (h : NoNotes a) : a.footnotes.collecting = false := by
  have := congrArg FootnoteSet.collecting h
  exact this

theorem NoNotes.pending {a : St} (h : NoNotes a) : a.footnotes.pending = [] := by
  have := congrArg FootnoteSet.pending h
  exact this

theorem NoNotes.references {a : St} (h : NoNotes a) : a.footnotes.pendingReferences = [] := by
  have := congrArg FootnoteSet.pendingReferences h
  exact this

/-- The first output is `P` and the second output, the labels `E` and those of the second state are defined in
the first, and otherwise the two states agree as far as it matters. -/
structure Alike (P : List Char) (E : List (List Char)) (a b : St) : Prop where
  eq : unmarked a = unmarked b
  left : NoNotes a
  right : NoNotes b
  out : a.output = P ++ b.output
  emitted : a.emittedReferences = E ++ b.emittedReferences
  free : ∀ e ∈ b.pendingReferences, e.2.label ∉ E

/-- What a block must satisfy for the two runs to stay alike. -/
structure KidAlike (cx : Cx) (E : List (List Char)) (k : Kid) : Prop where
  deaf : Deaf k.act
  par : Par k.act
  ok : KidOk cx k
  block : isItemLike k.node = false
  names : ∀ r ∈ (uses cx k.node).may, r.label ∉ E

variable {cx : Cx} {P : List Char} {E : List (List Char)} {a b : St}

theorem Alike.view (h : Alike P E a b) : view a = view b := by
  have := congrArg Hongdown.view h.eq
  exact this

theorem Alike.skip (h : Alike P E a b) : a.skipMode = b.skipMode := by
  have := congrArg St.skipMode h.eq
  exact this

theorem Alike.pending (h : Alike P E a b) : a.pendingReferences = b.pendingReferences := by
  have := congrArg St.pendingReferences h.eq
  exact this

/-- A change that writes and defines nothing. -/
theorem Alike.upd {f : St → St} (h : Alike P E a b) (hd : Deaf f) (h1 : ∀ s, (f s).output = s.output)
    (h2 : ∀ s, (f s).emittedReferences = s.emittedReferences)
    (h3 : ∀ s, (f s).pendingReferences = s.pendingReferences) : Alike P E (f a) (f b) where
  eq := (hd a b h.eq).1
  left := h.left.of ((hd a b h.eq).2 h.left.collecting)
  right := h.right.of ((hd b a h.eq.symm).2 h.right.collecting)
  out := by rw [h1, h1, h.out]
  emitted := by rw [h2, h2, h.emitted]
  free := by rw [h3]; exact h.free

theorem Alike.push (h : Alike P E a b) (t : List Char) : Alike P E (a.push t) (b.push t) where
  eq := h.eq
  left := h.left
  right := h.right
  out := by simp only [St.push, h.out, List.append_assoc]
  emitted := h.emitted
  free := h.free

theorem Alike.setSkip (h : Alike P E a b) (m : SkipMode) :
    Alike P E { a with skipMode := m } { b with skipMode := m } :=
  h.upd (f := fun s => { s with skipMode := m }) (Deaf.upd (fun _ => rfl) (fun _ => rfl)) (fun _ => rfl) (fun _ => rfl)
    (fun _ => rfl)

theorem mapGrow_mem {β : Type} {key : β → List Char} {ok : β → Prop} {m m' : List (List Char × β)}
    (h : MapGrow key ok m m') {e : List Char × β} (he : e ∈ m') : ok e.2 ∨ e ∈ m := by
  obtain ⟨vs, hv, rfl⟩ := h
  induction vs generalizing m with
  | nil => exact .inr he
  | cons v vs ih =>
    rcases ih (fun v hm => hv v (by simp [hm])) he with h | h
    · exact .inl h
    · rcases mapInsert_mem h with rfl | h
      · exact .inl (hv v (by simp))
      · exact .inr h

theorem Alike.act {k : Kid} (h : Alike P E a b) (hk : KidAlike cx E k) : Alike P E (k.act a) (k.act b) := by
  have ha := hk.ok.act hk.block a
  have hb := hk.ok.act hk.block b
  obtain ⟨_, t, h1, h2⟩ := hk.par a b h.view
  refine ⟨(hk.deaf a b h.eq).1, h.left.of ((hk.deaf a b h.eq).2 h.left.collecting),
    h.right.of ((hk.deaf b a h.eq.symm).2 h.right.collecting), by rw [h1, h2, h.out, List.append_assoc], ?_, ?_⟩
  · have e1 : (k.act a).emittedReferences = a.emittedReferences := ha.core.emitted
    have e2 : (k.act b).emittedReferences = b.emittedReferences := hb.core.emitted
    rw [e1, e2, h.emitted]
  · intro e he
    rcases mapGrow_mem hb.core.pending he with h' | h'
    · exact hk.names _ h'
    · exact h.free e h'

/-- With no footnotes a flush is a flush of the references. -/
theorem flushAll_references (cx : Cx) (b : Option Nat) {st : St} (h : NoNotes st) :
    flushAll cx b st = flushReferences st ∧ NoNotes (flushReferences st) := by
  have hn : NoNotes (flushReferences st) := by
    rw [flushReferences_eq]
    exact h
  refine ⟨?_, hn⟩
  have e : flushFootnotesBefore cx b st = st := by rw [flushFootnotesBefore, if_pos h.pending]
  rw [flushAll, e, flushFootnoteRefsBefore, if_pos hn.references]

theorem suffix_long {α : Type} {s P o : List α} (h : s.length ≤ o.length) : s <:+ P ++ o ↔ s <:+ o :=
  ⟨fun hs => List.suffix_of_suffix_length_le hs (List.suffix_append _ _) h, fun hs => hs.trans (List.suffix_append _ _)⟩

theorem gapOf_long {P o : List Char} (h : P = [] ∨ 2 ≤ o.length) : gapOf (P ++ o) = gapOf o := by
  rcases h with rfl | h
  · rfl
  · have e1 : ['\n', '\n'].isSuffixOf (P ++ o) = ['\n', '\n'].isSuffixOf o := by
      rw [Bool.eq_iff_iff, List.isSuffixOf_iff_suffix, List.isSuffixOf_iff_suffix]
      exact suffix_long h
    have e2 : ['\n'].isSuffixOf (P ++ o) = ['\n'].isSuffixOf o := by
      rw [Bool.eq_iff_iff, List.isSuffixOf_iff_suffix, List.isSuffixOf_iff_suffix]
      exact suffix_long (Nat.le_trans (by decide) h)
    rw [gapOf, gapOf, e1, e2]

theorem Alike.refsOut (h : Alike P E a b) : refsOut a = refsOut b := by
  rw [Hongdown.refsOut, Hongdown.refsOut]
  congr 1
  rw [freshRefs, freshRefs, h.pending, h.emitted]
  apply List.filter_congr
  intro r hr
  obtain ⟨e, he, rfl⟩ := List.mem_map.mp hr
  have := h.free e he
  simp [this]

theorem Alike.flush (h : Alike P E a b) (hl : P = [] ∨ 2 ≤ b.output.length) (cx : Cx) (l m : Option Nat) :
    Alike P E (flushAll cx l a) (flushAll cx m b) := by
  obtain ⟨h1, h2⟩ := flushAll_references cx l h.left
  obtain ⟨h3, h4⟩ := flushAll_references cx m h.right
  rw [h1, h3]
  refine ⟨?_, h2, h4, ?_, ?_, ?_⟩
  · rw [flushReferences_eq, flushReferences_eq]
    have := congrArg (fun s : St => ({ s with pendingReferences := [] } : St)) h.eq
    exact this
  · rw [flushReferences_eq, flushReferences_eq]
    simp only [h.out, h.refsOut, groupText, gapOf_long hl, List.append_assoc]
  · rw [flushReferences_eq, flushReferences_eq]
    simp only [h.emitted, h.refsOut, List.append_assoc]
  · rw [flushReferences_eq]
    simp

theorem long_of (h : P = [] ∨ 2 ≤ a.output.length) (hp : a.output <+: b.output) :
    P = [] ∨ 2 ≤ b.output.length :=
  h.imp_right fun h => Nat.le_trans h hp.length_le

theorem serTopBlock_alike {k : Kid} (hk : KidAlike cx E k) (h : Alike P E a b) :
    Alike P E (serTopBlock cx k a) (serTopBlock cx k b) := by
  have hs := h.skip
  rw [serTopBlock, serTopBlock, hs]
  split
  · exact h.act hk
  · split
    · exact (h.setSkip _).act hk
    · have h1 : Alike P E (if b.skipMode = .nextBlock then { a with skipMode := .none } else a)
          (if b.skipMode = .nextBlock then { b with skipMode := .none } else b) := by
        split
        · exact h.setSkip _
        · exact h
      simp only []
      generalize (if b.skipMode = .nextBlock then { a with skipMode := .none } else a) = a' at h1 ⊢
      generalize (if b.skipMode = .nextBlock then { b with skipMode := .none } else b) = b' at h1 ⊢
      cases extractSource cx k.node.pos with
      | some source => exact h1.push _
      | none => exact h1.act hk

theorem serTopChild_alike {k : Kid} (hk : KidAlike cx E k) (prev : Option Node) (tr : Bool)
    (hl : P = [] ∨ 2 ≤ b.output.length) (h : Alike P E a b) :
    Alike P E (serTopChild cx prev tr k a).1 (serTopChild cx prev tr k b).1 ∧
      (serTopChild cx prev tr k a).2 = (serTopChild cx prev tr k b).2 := by
  have hf := h.flush hl cx (some k.node.pos.startLine) (some k.node.pos.startLine)
  have hd : ∀ (g l : List Char) (m : SkipMode) {a b : St}, Alike P E a b →
      Alike P E (writeDirective g l m a) (writeDirective g l m b) := fun g l m _ _ h => (h.setSkip m).push _
  rw [serTopChild, serTopChild]
  split
  · exact ⟨h, rfl⟩
  · split
    · exact ⟨h, rfl⟩
    · cases k.node.directive with
      | some d =>
        cases d with
        | disableFile =>
          simp only []
          refine ⟨?_, trivial⟩
          cases extractSourceFromLine cx (k.node.pos.endLine + 1) with
          | some r => exact (hf.push _).push _
          | none => exact hf.push _
        | disableNextLine => exact ⟨hd _ _ _ hf, rfl⟩
        | disableNextSection => exact ⟨hd _ _ _ hf, rfl⟩
        | disable => exact ⟨hd _ _ _ hf, rfl⟩
        | enable => exact ⟨hd _ _ _ h, rfl⟩
        | properNouns ns =>
          exact ⟨(h.upd (f := fun s => { s with directiveProperNouns := s.directiveProperNouns ++ ns })
            (Deaf.upd (fun _ => rfl) (fun _ => rfl)) (fun _ => rfl) (fun _ => rfl) (fun _ => rfl)).push _, rfl⟩
        | commonNouns ns =>
          exact ⟨(h.upd (f := fun s => { s with directiveCommonNouns := s.directiveCommonNouns ++ ns })
            (Deaf.upd (fun _ => rfl) (fun _ => rfl)) (fun _ => rfl) (fun _ => rfl) (fun _ => rfl)).push _, rfl⟩
      | none =>
        simp only []
        refine ⟨serTopBlock_alike hk (Alike.push ?_ _), trivial⟩
        split
        · exact hf
        · exact h

/-- The loops count the trailing blocks in the same way: both have as many blocks left, or both have more than
there are. -/
theorem serTopLoop_alike : ∀ (kids : List Kid) (_ : ∀ k ∈ kids, KidAlike cx E k) (prev : Option Node)
    (m m' : Nat) (_ : m = m' ∨ (kids.length ≤ m ∧ kids.length ≤ m')) (a b : St)
    (_ : P = [] ∨ 2 ≤ b.output.length) (_ : Alike P E a b),
    Alike P E (serTopLoop cx prev m kids a).1 (serTopLoop cx prev m' kids b).1 ∧
      (serTopLoop cx prev m kids a).2 = (serTopLoop cx prev m' kids b).2
  | [], _, _, _, _, _, _, _, _, h => ⟨h, rfl⟩
  | k :: ks, hk, prev, m, m', hm, a, b, hl, h => by
    rw [List.length_cons] at hm
    have e : (m == 0) = (m' == 0) := by
      rcases hm with rfl | hm
      · rfl
      · have e1 : (m == 0) = false := by simp only [beq_eq_false_iff_ne]; omega
        have e2 : (m' == 0) = false := by simp only [beq_eq_false_iff_ne]; omega
        rw [e1, e2]
    obtain ⟨h1, h2⟩ := serTopChild_alike (hk k (by simp)) prev (m' == 0) hl h
    have hl' := long_of hl (serTopChild_grows (cx := cx) (hk k (by simp)).ok (hk k (by simp)).block prev (m' == 0) b).out
    rw [serTopLoop, serTopLoop, e, h2]
    split
    · exact ⟨h1, h2⟩
    · exact serTopLoop_alike ks (fun k hk' => hk k (by simp [hk'])) (some k.node) (m - 1) (m' - 1)
        (by omega) _ _ hl' h1

theorem outputTrailing_alike (h : Alike P E a b) (hl : P = [] ∨ 2 ≤ b.output.length) (ns : List Node) :
    (outputTrailing ns a).output = P ++ (outputTrailing ns b).output := by
  rw [outputTrailing, outputTrailing]
  cases ns.filterMap Node.html? with
  | nil => exact h.out
  | cons l ls =>
    simp only [ensureBlankLine_eq, St.push, h.out, gapOf_long hl, List.append_assoc]

/-! ### Documents -/

theorem nextIsBracket_heading {h : Node} (hh : h.headingLevel = some 2 ∨ h.headingLevel = some 3) (B : List Node) :
    nextIsBracket (h :: B) = nextIsBracket [] := by
  obtain ⟨v, q, ks⟩ := h
  cases v <;> simp [Node.headingLevel, Node.value] at hh <;> rfl

theorem serKids_before {h : Node} (cx : Cx) (hh : h.headingLevel = some 2 ∨ h.headingLevel = some 3) (B : List Node) :
    ∀ A : List Node, serKids cx (A ++ h :: B) =
      serKids cx A ++ ⟨h, ser cx h (nextIsBracket B)⟩ :: serKids cx B
  | [] => by rw [List.nil_append, serKids, serKids, List.nil_append]
  | [a] => by
    show serKids cx (a :: (h :: B)) = _
    rw [serKids, serKids, nextIsBracket_heading hh B, serKids, serKids, List.cons_append, List.nil_append]
  | a :: b :: A => by
    have ih := serKids_before cx hh B (b :: A)
    rw [List.cons_append, serKids, ih, serKids, List.cons_append]
    congr 2
    obtain ⟨v, q, ks⟩ := b
    cases v <;> rfl

theorem trailingCount_le : ∀ l : List Node, trailingCount l ≤ l.length
  | [] => Nat.le_refl _
  | n :: ns => by
    have := trailingCount_le ns
    rw [trailingCount, List.length_cons]
    repeat' split
    all_goals omega

theorem trailingStart_whole {A : List Node} (hA : ∀ n, A.getLast? = some n → n.isPlainHtml = false)
    (hf : ∀ n ∈ A, n.isFootnoteDefinition = false) : trailingStart A = A.length := by
  rw [trailingStart]
  have : trailingCount A.reverse = 0 := by
    rcases List.eq_nil_or_concat A with rfl | ⟨A', n, rfl⟩
    · rfl
    · rw [List.concat_eq_append] at hA hf ⊢
      rw [List.reverse_append, List.reverse_singleton, List.singleton_append, trailingCount,
        hA n (by simp), hf n (by simp)]
      rfl
  omega

theorem noteFree_def {n : Node} (h : noteFree n = true) : n.isFootnoteDefinition = false := by
  obtain ⟨v, p, cs⟩ := n
  rw [noteFree, Bool.and_eq_true] at h
  cases v <;> simp [noteName, Node.value] at h <;> rfl

theorem noteFreeList_mem {l : List Node} (h : noteFreeList l = true) : ∀ n ∈ l, noteFree n = true := by
  induction l with
  | nil => simp
  | cons n l ih =>
    rw [noteFreeList, Bool.and_eq_true] at h
    intro m hm
    rcases List.mem_cons.mp hm with rfl | hm
    · exact h.1
    · exact ih h.2 m hm

theorem serTopLoop_on {cx : Cx} : ∀ (kids : List Kid) (_ : ∀ k ∈ kids, k.node.directive ≠ some .disableFile)
    (prev : Option Node) (m : Nat) (st : St), (serTopLoop cx prev m kids st).2 = false
  | [], _, _, _, _ => rfl
  | k :: ks, h, prev, m, st => by
    have h1 : (serTopChild cx prev (m == 0) k st).2 = false := by
      have := h k (by simp)
      rw [serTopChild]
      split
      · rfl
      · split
        · rfl
        · cases hd : k.node.directive with
          | none => rfl
          | some d =>
            cases d with
            | disableFile => exact absurd hd this
            | _ => rfl
    rw [serTopLoop, if_neg (by rw [h1]; simp)]
    exact serTopLoop_on ks (fun k hk => h k (by simp [hk])) _ _ _

theorem footnotesNone {cx : Cx} {cs : List Node} (h : ∀ n ∈ cs, n.isFootnoteDefinition = false) (st : St) :
    serFootnoteDefinitions (serKids cx cs) st = st := by
  rw [serFootnoteDefinitions]
  have : (serKids cx cs).filter (fun k => k.node.isFootnoteDefinition) = [] := by
    rw [List.filter_eq_nil_iff]
    intro k hk
    rw [h k.node (by rw [← serKids_nodes cx cs]; exact List.mem_map.mpr ⟨k, hk, rfl⟩)]
    simp
  rw [this]
  rfl

theorem serKids_alike {cs : List Node} (hw : wellPlacedList cs = true) (hb : ∀ c ∈ cs, isItemLike c = false)
    (hn : noteFreeList cs = true) (hE : ∀ r ∈ namedRefs cx cs, r.label ∉ E) : ∀ k ∈ serKids cx cs, KidAlike cx E k := by
  intro k hk
  have hm : k.node ∈ cs := by
    rw [← serKids_nodes cx cs]
    exact List.mem_map.mpr ⟨k, hk, rfl⟩
  exact ⟨serKids_deaf cx cs hw hn k hk, serKids_par cx cs hw k hk, serKids_ok cx cs hw k hk, hb _ hm,
    fun r hr => hE r (namedIn_of (uses_named cx k.node r hr) hm)⟩

/-- The state in which the loop over the blocks starts. -/
theorem start_alike (ws ws' : List Warning) (ls ls' : List (List Char × Nat)) :
    Alike [] [] (recordLines ls { ({} : St) with warnings := ws }) (recordLines ls' { ({} : St) with warnings := ws' }) := by
  have h : ∀ (ls : List (List Char × Nat)) (s : St), unmarked (recordLines ls s) = unmarked s ∧
      waiting (recordLines ls s) = waiting s ∧ (recordLines ls s).output = s.output ∧
      (recordLines ls s).emittedReferences = s.emittedReferences ∧
      (recordLines ls s).pendingReferences = s.pendingReferences := by
    intro ls
    induction ls with
    | nil => exact fun _ => ⟨rfl, rfl, rfl, rfl, rfl⟩
    | cons l ls ih =>
      intro s
      obtain ⟨h1, h2, h3, h4, h5⟩ := ih (recordReferenceLine l.1 l.2 s)
      exact ⟨h1.trans rfl, h2.trans rfl, h3.trans rfl, h4.trans rfl, h5.trans rfl⟩
  have hn : ∀ ws : List Warning, NoNotes { ({} : St) with warnings := ws } := fun _ => rfl
  obtain ⟨h1, h2, h3, h4, h5⟩ := h ls { ({} : St) with warnings := ws }
  obtain ⟨g1, g2, g3, g4, g5⟩ := h ls' { ({} : St) with warnings := ws' }
  exact ⟨h1.trans g1.symm, (hn ws).of h2, (hn ws').of g2, by rw [h3, g3]; rfl, by rw [h4, g4]; rfl, by rw [g5]; simp⟩

theorem wellPlacedList_append {A B : List Node} :
    wellPlacedList (A ++ B) = true ↔ wellPlacedList A = true ∧ wellPlacedList B = true := by
  induction A with
  | nil => simp [wellPlacedList]
  | cons a A ih => simp only [List.cons_append, wellPlacedList, Bool.and_eq_true, ih, and_assoc]

theorem kid_act {cx : Cx} : ∀ {cs : List Node}, ∀ k ∈ serKids cx cs, ∃ nb, k.act = ser cx k.node nb
  | [], k, hk => by simp [serKids] at hk
  | c :: cs, k, hk => by
    rw [serKids] at hk
    rcases List.mem_cons.mp hk with rfl | hk
    · exact ⟨_, rfl⟩
    · exact kid_act k hk

/-- Up to a heading of the second or third level a document is written as if it ended there. -/
theorem formatDoc_before {cx : Cx} {p q : Pos} {A B : List Node} {h : Node}
    (hw : wellPlacedDoc (A ++ h :: B) = true) (hn : noteFreeList A = true)
    (hB : ∀ n ∈ B, n.isFootnoteDefinition = false) (hd : ∀ n ∈ A, n.directive ≠ some .disableFile)
    (hl : ∀ n, A.getLast? = some n → n.isPlainHtml = false) (hA : A ≠ [])
    (hh : h.headingLevel = some 2 ∨ h.headingLevel = some 3) :
    ∃ Y, (formatDoc cx (.mk .document p (A ++ h :: B))).output =
        (formatDoc cx (.mk .document q A)).output ++ gapBetween A h ++ Y ∧
      ((∀ n ∈ A, n.directive = none) → ∃ Z, Y = formatted cx A h (nextIsBracket B) ++ Z) := by
  have hfA : ∀ n ∈ A, n.isFootnoteDefinition = false := fun n hm => noteFree_def (noteFreeList_mem hn n hm)
  obtain ⟨hpl, hfd⟩ := heading_plain hh
  have hhd : h.directive = none := by
    obtain ⟨v, r, ks⟩ := h
    cases v <;> simp [Node.headingLevel, Node.value] at hh <;> rfl
  have hf : ∀ n ∈ A ++ h :: B, n.isFootnoteDefinition = false := by
    intro n hm
    rcases List.mem_append.mp hm with hm | hm
    · exact hfA n hm
    · rcases List.mem_cons.mp hm with rfl | hm
      · exact hfd
      · exact hB n hm
  have hwl : wellPlacedList (A ++ h :: B) = true := by
    rw [wellPlacedDoc, Bool.and_eq_true] at hw
    exact hw.2
  have hbl : ∀ c ∈ A ++ h :: B, isItemLike c = false := by
    intro c hc
    rw [wellPlacedDoc, Bool.and_eq_true] at hw
    simpa using List.all_eq_true.mp hw.1 _ hc
  have hwA := (wellPlacedList_append.mp hwl).1
  have hwp : ∀ n ∈ A ++ h :: B, wellPlaced n = true := fun n hm => wellPlacedList_mem hwl hm
  obtain ⟨main, tail, ht⟩ := trailing_exists (A ++ h :: B)
  obtain ⟨C, hmain, hBt⟩ := trailing_split ht (heading_plain hh)
  obtain ⟨F, T, _, _, hts⟩ := trailing_spec ht
  have hlen : A.length + 1 ≤ trailingStart (A ++ h :: B) := by
    rw [hts, hmain]; simp only [List.length_append, List.length_cons]; omega
  have hAl : (serKids cx A).length = A.length := by
    rw [← congrArg List.length (serKids_nodes cx A), List.length_map]
  have hdk : ∀ k ∈ serKids cx A, k.node ∈ A := by
    intro k hk
    rw [← serKids_nodes cx A]
    exact List.mem_map.mpr ⟨k, hk, rfl⟩
  -- the two runs over the blocks before the heading
  rw [formatDoc, formatDoc, ser, ser, dispatch, dispatch, serDocument, serDocument, serKids_nodes, serKids_nodes,
    footnotesNone hf, footnotesNone hfA]
  simp only []
  have hst := start_alike (({} : St).warnings ++ undefinedWarnings cx (A ++ h :: B))
    (({} : St).warnings ++ undefinedWarnings cx A) (footnoteRefLinesList (A ++ h :: B)) (footnoteRefLinesList A)
  have hinv : TopInv [] (recordLines (footnoteRefLinesList (A ++ h :: B))
      { ({} : St) with warnings := ({} : St).warnings ++ undefinedWarnings cx (A ++ h :: B) }) := by
    have hrec : ∀ (ls : List (List Char × Nat)) (s : St), view (recordLines ls s) = view s ∧
        (recordLines ls s).skipMode = s.skipMode := by
      intro ls
      induction ls with
      | nil => exact fun _ => ⟨rfl, rfl⟩
      | cons l ls ih =>
        intro s
        obtain ⟨h1, h2⟩ := ih (recordReferenceLine l.1 l.2 s)
        exact ⟨h1.trans rfl, h2.trans rfl⟩
    exact ⟨(hrec _ _).2.trans rfl, (hrec _ _).1.trans rfl⟩
  generalize recordLines (footnoteRefLinesList (A ++ h :: B))
      { ({} : St) with warnings := ({} : St).warnings ++ undefinedWarnings cx (A ++ h :: B) } = s1 at *
  generalize recordLines (footnoteRefLinesList A)
      { ({} : St) with warnings := ({} : St).warnings ++ undefinedWarnings cx A } = s2 at *
  obtain ⟨hal, _⟩ := serTopLoop_alike (cx := cx) (serKids cx A)
    (serKids_alike hwA (fun c hc => hbl c (by simp [hc])) hn (by simp)) none (trailingStart (A ++ h :: B))
    (trailingStart A) (.inr ⟨by omega, by rw [trailingStart_whole hl hfA]; omega⟩) s1 s2 (.inl rfl) hst
  have on1 := serTopLoop_on (cx := cx) (serKids cx A) (fun k hk => hd _ (hdk k hk)) none (trailingStart (A ++ h :: B)) s1
  have on2 := serTopLoop_on (cx := cx) (serKids cx A) (fun k hk => hd _ (hdk k hk)) none (trailingStart A) s2
  have invA : (∀ n ∈ A, n.directive = none) →
      TopInv A (serTopLoop cx none (trailingStart (A ++ h :: B)) (serKids cx A) s1).1 := by
    intro hno
    have := serTopLoop_inv (cx := cx) (serKids cx A) [] (trailingStart (A ++ h :: B)) s1 (by omega)
      (fun k hk => kid_act k hk)
      (fun k hk => ⟨hwp _ (by simp [hdk k hk]), hbl _ (by simp [hdk k hk]), hno _ (hdk k hk)⟩) (by simp) hinv
    rwa [serKids_nodes, List.nil_append, List.getLast?_nil] at this
  rw [on2]
  have hdrop : A.drop (trailingStart A) = [] := by rw [trailingStart_whole hl hfA, List.drop_length]
  rw [hdrop, serKids_before cx hh B A, serTopLoop_append cx _ _ _ _ _ on1]
  have hlast : ((serKids cx A).getLast?.map (·.node)).or none = A.getLast? := by
    rw [Option.or_none, ← List.getLast?_map, serKids_nodes]
  rw [hlast, hAl]
  generalize (serTopLoop cx none (trailingStart (A ++ h :: B)) (serKids cx A) s1).1 = sA at *
  generalize (serTopLoop cx none (trailingStart A) (serKids cx A) s2).1 = sB at *
  have hm0 : (trailingStart (A ++ h :: B) - A.length == 0) = false := by
    simp only [beq_eq_false_iff_ne]; omega
  have hok := serKids_ok cx (A ++ h :: B) hwl
  rw [serKids_before cx hh B A] at hok
  have hb : Blocks (serKids cx (A ++ h :: B)) := fun k hk => hbl _ (by
    rw [← serKids_nodes cx (A ++ h :: B)]
    exact List.mem_map.mpr ⟨k, hk, rfl⟩)
  rw [serKids_before cx hh B A] at hb
  have eC : serTopChild cx A.getLast? false ⟨h, ser cx h (nextIsBracket B)⟩ sA =
      (serTopBlock cx ⟨h, ser cx h (nextIsBracket B)⟩
        ((flushAll cx (some h.pos.startLine) sA).push (gapBetween A h)), false) := by
    rw [serTopChild]
    simp only [Bool.false_and, hfd, hhd, blockGap_eq, getLast_isSome]
    simp [hA, hh]
  have growH := serTopBlock_grows (hok ⟨h, ser cx h (nextIsBracket B)⟩ (by simp)) (hb ⟨h, ser cx h (nextIsBracket B)⟩ (by simp))
    ((flushAll cx (some h.pos.startLine) sA).push (gapBetween A h))
  have growB := serTopLoop_grows (cx := cx) (kids := serKids cx B) (fun k hk => hok k (by simp [hk]))
    (fun k hk => hb k (by simp [hk])) (some h) (trailingStart (A ++ h :: B) - A.length - 1)
    (serTopBlock cx ⟨h, ser cx h (nextIsBracket B)⟩ ((flushAll cx (some h.pos.startLine) sA).push (gapBetween A h)))
  have eH : serTopLoop cx A.getLast? (trailingStart (A ++ h :: B) - A.length)
      (⟨h, ser cx h (nextIsBracket B)⟩ :: serKids cx B) sA =
      serTopLoop cx (some h) (trailingStart (A ++ h :: B) - A.length - 1) (serKids cx B)
        (serTopBlock cx ⟨h, ser cx h (nextIsBracket B)⟩
          ((flushAll cx (some h.pos.startLine) sA).push (gapBetween A h))) := by
    rw [serTopLoop, hm0, eC]
    rfl
  rw [eH]
  have textH : (∀ n ∈ A, n.directive = none) →
      (serTopBlock cx ⟨h, ser cx h (nextIsBracket B)⟩
        ((flushAll cx (some h.pos.startLine) sA).push (gapBetween A h))).output =
      ((flushAll cx (some h.pos.startLine) sA).push (gapBetween A h)).output ++ formatted cx A h (nextIsBracket B) := by
    intro hno
    obtain ⟨_, _, c3⟩ := serTopChild_inv (cx := cx) (nb := nextIsBracket B) (hwp h (by simp)) (hbl h (by simp)) hhd hno
      (invA hno)
    have c3 := c3 hfd
    rw [eC, if_pos ⟨hA, hh⟩] at c3
    exact c3
  generalize serTopBlock cx ⟨h, ser cx h (nextIsBracket B)⟩
    ((flushAll cx (some h.pos.startLine) sA).push (gapBetween A h)) = sH at *
  generalize serTopLoop cx (some h) (trailingStart (A ++ h :: B) - A.length - 1) (serKids cx B) sH = r at *
  have growE : Grows r.1 (if r.2 = true then r.1 else
      outputTrailing ((A ++ h :: B).drop (trailingStart (A ++ h :: B))) (flushAll cx none r.1)) := by
    split
    · exact Grows.refl _
    · exact (grows_flushAll cx none r.1).trans (outputTrailing_grows _ _)
  have e2 : (if false = true then sB else outputTrailing [] (flushAll cx none sB)).output =
      (flushAll cx (some h.pos.startLine) sA).output := by
    rw [if_neg (by simp)]
    exact (hal.flush (.inl rfl) cx (some h.pos.startLine) none).out.symm
  rw [e2]
  obtain ⟨t, ht⟩ := growH.out
  obtain ⟨u, hu⟩ := growB.out.trans growE.out
  refine ⟨t ++ u, ?_, fun hno => ⟨u, ?_⟩⟩
  · rw [← hu, ← ht]
    simp only [St.push, List.append_assoc]
  · have := textH hno
    rw [← ht] at this
    rw [List.append_cancel_left this]

end Hongdown
