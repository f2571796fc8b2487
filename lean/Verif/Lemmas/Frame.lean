import Verif.Lemmas.RefRun
import Verif.Model.Document
import Verif.Spec.Tree

set_option linter.unusedSimpArgs false

/-!
# What serializing a block leaves alone

For every block serializer: output and warnings only grow, nothing is flushed, the context
is restored, and the labels it uses become known.
-/

namespace Hongdown
open Model Spec

/-- References which must and which may be added, and names of footnotes which may be. -/
structure Uses where
  must : List Ref
  may : List Ref
  fns : List (List Char)

def Uses.none : Uses := ⟨[], [], []⟩
def Uses.of (rs : List Ref) : Uses := ⟨rs, rs, []⟩
def Uses.append (a b : Uses) : Uses := ⟨a.must ++ b.must, a.may ++ b.may, a.fns ++ b.fns⟩
instance : Append Uses := ⟨Uses.append⟩

@[simp] theorem Uses.append_must (a b : Uses) : (a ++ b).must = a.must ++ b.must := rfl
@[simp] theorem Uses.append_may (a b : Uses) : (a ++ b).may = a.may ++ b.may := rfl
@[simp] theorem Uses.append_fns (a b : Uses) : (a ++ b).fns = a.fns ++ b.fns := rfl
@[simp] theorem Uses.none_must : Uses.none.must = [] := rfl
@[simp] theorem Uses.none_may : Uses.none.may = [] := rfl
@[simp] theorem Uses.none_fns : Uses.none.fns = [] := rfl
@[simp] theorem Uses.of_fns (rs : List Ref) : (Uses.of rs).fns = [] := rfl
@[simp] theorem Uses.of_must (rs : List Ref) : (Uses.of rs).must = rs := rfl
@[simp] theorem Uses.of_may (rs : List Ref) : (Uses.of rs).may = rs := rfl

theorem Uses.assoc (a b c : Uses) : a ++ b ++ c = a ++ (b ++ c) := by
  show Uses.append (Uses.append a b) c = Uses.append a (Uses.append b c)
  simp [Uses.append]

theorem Uses.append_none (a : Uses) : a ++ Uses.none = a := by
  show Uses.append a Uses.none = a
  simp [Uses.append, Uses.none]

/-- `u` may stand for `v`: it promises at least as much and allows at most as much. -/
def Uses.le (u v : Uses) : Prop := 
  (∀ r ∈ v.must, r ∈ u.must) ∧ (∀ r ∈ u.may, r ∈ v.may) ∧ ∀ n ∈ u.fns, n ∈ v.fns

/-- `m'` comes from `m` by insertions of some values with property `ok`. -/
def MapGrow {β : Type} (key : β → List Char) (ok : β → Prop) (m m' : List (List Char × β)) : Prop :=
  ∃ vs : List β, (∀ v ∈ vs, ok v) ∧ m' = vs.foldl (fun m v => mapInsert (key v) v m) m

theorem MapGrow.refl {β : Type} (key : β → List Char) (ok : β → Prop) (m : List (List Char × β)) :
    MapGrow key ok m m := ⟨[], by simp, rfl⟩

theorem MapGrow.trans {β : Type} {key : β → List Char} {ok : β → Prop} {a b c : List (List Char × β)}
    (h : MapGrow key ok a b) (h' : MapGrow key ok b c) : MapGrow key ok a c := by
  obtain ⟨vs, hv, rfl⟩ := h
  obtain ⟨ws, hw, rfl⟩ := h'
  refine ⟨vs ++ ws, ?_, by rw [List.foldl_append]⟩
  intro v hm
  rcases List.mem_append.mp hm with hm | hm
  · exact hv v hm
  · exact hw v hm

theorem MapGrow.weaken {β : Type} {key : β → List Char} {ok ok' : β → Prop} {a b : List (List Char × β)}
    (h : MapGrow key ok a b) (hk : ∀ v, ok v → ok' v) : MapGrow key ok' a b := by
  obtain ⟨vs, hv, rfl⟩ := h
  exact ⟨vs, fun v hm => hk v (hv v hm), rfl⟩

theorem MapGrow.insert {β : Type} (key : β → List Char) (ok : β → Prop) (m : List (List Char × β))
    (v : β) (hv : ok v) : MapGrow key ok m (mapInsert (key v) v m) := ⟨[v], by simpa using hv, rfl⟩

theorem MapGrow.keys {β : Type} {key : β → List Char} {ok : β → Prop} {m m' : List (List Char × β)}
    (h : MapGrow key ok m m') {l : List Char} (hl : l ∈ m.map (·.1)) : l ∈ m'.map (·.1) := by
  obtain ⟨vs, hv, rfl⟩ := h
  clear hv
  induction vs generalizing m with
  | nil => exact hl
  | cons v vs ih => exact ih ((mapInsert_key_mem _ _ _ _).mpr (.inr hl))

/-- The fields other than the output that are not context. -/
structure CoreSt where
  warnings : List Warning
  emitted : List (List Char)
  pending : List (List Char × Ref)
  footnotes : FootnoteSet
  skip : SkipMode
  proper : List (List Char)
  common : List (List Char)
  panicked : Bool

def core (st : St) : CoreSt where
  warnings := st.warnings
  emitted := st.emittedReferences
  pending := st.pendingReferences
  footnotes := st.footnotes
  skip := st.skipMode
  proper := st.directiveProperNouns
  common := st.directiveCommonNouns
  panicked := st.panicked

/-- The context fields. -/
structure CtxSt where
  listItemIndex : Nat
  listType : Option ListType
  listTight : Bool
  inBlockQuote : Bool
  blockquotePrefix : List Char
  listDepth : Nat
  inDescriptionDetails : Bool
  orderedListMaxItems : Nat
  listItemIndent : List Char
  blockquoteOuterIndent : List Char
  blockquoteEntryListDepth : Nat

def ctx (st : St) : CtxSt where
  listItemIndex := st.listItemIndex
  listType := st.listType
  listTight := st.listTight
  inBlockQuote := st.inBlockQuote
  blockquotePrefix := st.blockquotePrefix
  listDepth := st.listDepth
  inDescriptionDetails := st.inDescriptionDetails
  orderedListMaxItems := st.orderedListMaxItems
  listItemIndent := st.listItemIndent
  blockquoteOuterIndent := st.blockquoteOuterIndent
  blockquoteEntryListDepth := st.blockquoteEntryListDepth

theorem mapOrInsert_lookup {β : Type} {k n : List Char} {v l : β} {m : List (List Char × β)}
    (h : m.lookup n = some l) : (mapOrInsert k v m).lookup n = some l := by
  rw [mapOrInsert]
  split
  · exact h
  · rw [List.lookup_append, h]; rfl

/-- Nothing is lost, nothing is flushed, only the references `may` and footnotes named `fns` are added. -/
structure CoreRel (may : List Ref) (fns : List (List Char)) (a b : CoreSt) : Prop where
  warnings : a.warnings <+: b.warnings
  emitted : b.emitted = a.emitted
  fnEmitted : b.footnotes.emitted = a.footnotes.emitted
  skip : b.skip = a.skip
  proper : b.proper = a.proper
  common : b.common = a.common
  panicked : b.panicked = a.panicked
  collecting : a.footnotes.collecting = false → b.footnotes.collecting = false
  pending : MapGrow (·.label) (· ∈ may) a.pending b.pending
  fnPending : MapGrow (·.name) (·.name ∈ fns) a.footnotes.pending b.footnotes.pending
  fnRefs : MapGrow (·.1.label) (·.1 ∈ may) a.footnotes.pendingReferences b.footnotes.pendingReferences
  refLines : ∀ name l, a.footnotes.referenceLines.lookup name = some l →
    b.footnotes.referenceLines.lookup name = some l

theorem CoreRel.refl (may : List Ref) (fns : List (List Char)) (a : CoreSt) : CoreRel may fns a a :=
  ⟨List.prefix_rfl, rfl, rfl, rfl, rfl, rfl, rfl, id, .refl _ _ _, .refl _ _ _, .refl _ _ _, fun _ _ h => h⟩

theorem CoreRel.trans {may : List Ref} {fns : List (List Char)} {a b c : CoreSt} (h : CoreRel may fns a b)
    (h' : CoreRel may fns b c) : CoreRel may fns a c where
  warnings := h.warnings.trans h'.warnings
  emitted := h'.emitted.trans h.emitted
  fnEmitted := h'.fnEmitted.trans h.fnEmitted
  skip := h'.skip.trans h.skip
  proper := h'.proper.trans h.proper
  common := h'.common.trans h.common
  panicked := h'.panicked.trans h.panicked
  collecting := fun hc => h'.collecting (h.collecting hc)
  pending := h.pending.trans h'.pending
  fnPending := h.fnPending.trans h'.fnPending
  fnRefs := h.fnRefs.trans h'.fnRefs
  refLines := fun n l hl => h'.refLines n l (h.refLines n l hl)

theorem CoreRel.weaken {m1 m2 : List Ref} {n1 n2 : List (List Char)} {a b : CoreSt} (h : CoreRel m1 n1 a b)
    (hm : ∀ r ∈ m1, r ∈ m2) (hn : ∀ n ∈ n1, n ∈ n2) : CoreRel m2 n2 a b :=
  { h with
    fnPending := h.fnPending.weaken fun v hv => hn v.name hv
    pending := h.pending.weaken hm
    fnRefs := h.fnRefs.weaken fun v hv => hm v.1 hv }

/-- The labels which are pending. -/
def known (c : CoreSt) : List (List Char) :=
  c.pending.map (·.1) ++ c.footnotes.pendingReferences.map (·.1)

theorem CoreRel.known {may : List Ref} {fns : List (List Char)} {a b : CoreSt} (h : CoreRel may fns a b) {l : List Char}
    (hl : l ∈ known a) : l ∈ known b := by
  rw [Hongdown.known, List.mem_append] at hl ⊢
  exact hl.imp h.pending.keys h.fnRefs.keys

/-- `b` comes from `a` by serializing something with the references `u`. -/
structure OkAt (u : Uses) (a b : St) : Prop where
  out : a.output <+: b.output
  core : CoreRel u.may u.fns (core a) (core b)
  ctx : ctx b = ctx a
  dd : a.descriptionDetailsFirstList = false → b.descriptionDetailsFirstList = false
  cov : ∀ r ∈ u.must, r.label ∈ known (Hongdown.core b)

theorem OkAt.refl (a : St) : OkAt .none a a :=
  ⟨List.prefix_rfl, .refl _ _ _, rfl, id, by simp⟩

theorem OkAt.trans {u v : Uses} {a b c : St} (h : OkAt u a b) (h' : OkAt v b c) :
    OkAt (u ++ v) a c where
  out := h.out.trans h'.out
  core := (h.core.weaken (by simp +contextual) (by simp +contextual)).trans
    (h'.core.weaken (by simp +contextual) (by simp +contextual))
  ctx := h'.ctx.trans h.ctx
  dd := fun hd => h'.dd (h.dd hd)
  cov := by
    intro r hr
    rcases List.mem_append.mp hr with hr | hr
    · exact h'.core.known (h.cov r hr)
    · exact h'.cov r hr

theorem OkAt.mono {u v : Uses} {a b : St} (h : OkAt u a b) (hl : u.le v) : OkAt v a b :=
  { h with
    core := h.core.weaken hl.2.1 hl.2.2
    cov := fun r hm => h.cov r (hl.1 r hm) }

theorem okAt_push (a : St) (s : List Char) : OkAt .none a (a.push s) :=
  ⟨List.prefix_append _ _, .refl _ _ _, rfl, id, by simp⟩

theorem OkAt.push {u : Uses} {a b : St} (h : OkAt u a b) (s : List Char) :
    OkAt u a (b.push s) := (h.trans (okAt_push b s)).mono (by simp [Uses.le])

theorem OkAt.after_push {u : Uses} {a b : St} {s : List Char}
    (h : OkAt u (a.push s) b) : OkAt u a b := ((okAt_push a s).trans h).mono (by simp [Uses.le])

theorem okAt_warn (a : St) (ws : List Warning) :
    OkAt .none a { a with warnings := a.warnings ++ ws } :=
  ⟨List.prefix_rfl, { CoreRel.refl _ _ _ with warnings := List.prefix_append _ _ }, rfl, id, by simp⟩

theorem okAt_addReference (a : St) (r : Ref) : OkAt (.of [r]) a (addReference a r) := by
  rw [addReference]
  split
  · refine ⟨List.prefix_rfl, { CoreRel.refl _ [] _ with fnRefs := ?_, fnPending := .refl _ _ _ }, rfl, id, ?_⟩
    · exact MapGrow.insert (fun x : Ref × Nat => x.1.label) _ _ (r, a.footnotes.currentReferenceLine)
        (by simp)
    · intro l hl
      rw [Uses.of_must, List.mem_singleton] at hl
      subst hl
      rw [known, List.mem_append]
      exact .inr ((mapInsert_key_mem _ _ _ _).mpr (.inl rfl))
  · refine ⟨List.prefix_rfl, { CoreRel.refl _ _ _ with pending := ?_ }, rfl, id, ?_⟩
    · exact MapGrow.insert (fun x : Ref => x.label) _ _ r (by simp)
    · intro l hl
      rw [Uses.of_must, List.mem_singleton] at hl
      subst hl
      rw [known, List.mem_append]
      exact .inl ((mapInsert_key_mem _ _ _ _).mpr (.inl rfl))

theorem okAt_addReferences (rs : List Ref) : ∀ a : St, OkAt (.of rs) a (addReferences a rs) := by
  induction rs with
  | nil => exact OkAt.refl
  | cons r rs ih =>
    intro a
    exact (okAt_addReference a r).trans (ih (addReference a r))

/-! ### References of a block -/

/-- The references collected with inline content. -/
def usesOf (i : Inl) : Uses := .of i.2

mutual
/-- The references which serializing a block adds. A paragraph that is an abbreviation
definition adds none, except as part of a description. -/
def uses (cx : Cx) : Node → Uses
  | .mk v p cs =>
    match v with
    | .heading _ => usesOf (collectTexts cx cs)
    | .paragraph =>
      if (abbreviationDef cx p).isSome then ⟨[], (collectInlines cx cs).2, []⟩
      else usesOf (collectInlines cx cs)
    | .table _ => .of (cs.flatMap fun r => r.children.flatMap fun c => (collectInlines cx c.children).2)
    | .link url title =>
      match referenceStyleInfo cx p with
      | some (text, label) =>
        if cs.any Node.isImage then
          usesList cx cs ++ .of [⟨(stripPrefix? [collapsedMark] label).getD label, url, title⟩]
        else usesOf (formatReference [] text label url title)
      | none =>
        if cs.any Node.isImage then usesList cx cs
        else if title = [] ∧ rawTexts cs = url then .none
        else usesOf (collectTexts cx cs) ++
          (if isExternalUrl url then .of [⟨softToSpace (collectTexts cx cs).1, url, title⟩] else .none)
    | .image url title =>
      usesOf (collectTexts cx cs) ++
        match referenceStyleInfo cx p with
        | some (text, label) => usesOf (formatReference ['!'] text label url title)
        | none => .none
    | .footnoteDefinition name =>
      (if hasBlocks cs then usesList cx cs else usesOf (collectInlines cx cs)) ++ ⟨[], [], [name]⟩
    | .codeBlock _ _ => .none
    | .htmlBlock _ => .none
    | .htmlInline _ => .none
    | .frontMatter _ => .none
    | .tableRow => .none
    | .thematicBreak => .none
    | .text _ => .none
    | .softBreak => .none
    | .lineBreak => .none
    | .code _ => .none
    | .footnoteReference _ => .none
    | _ => usesList cx cs

def usesList (cx : Cx) : List Node → Uses
  | [] => .none
  | n :: ns => uses cx n ++ usesList cx ns
end

/-! ### Kids -/

/-- Items count themselves. -/
def kidStart (k : Kid) (st : St) : St :=
  if isItemLike k.node then { st with listItemIndex := st.listItemIndex + 1 } else st

def KidOk (cx : Cx) (k : Kid) : Prop := ∀ st, OkAt (uses cx k.node) (kidStart k st) (k.act st)

theorem KidOk.act {cx : Cx} {k : Kid} (h : KidOk cx k) (hi : isItemLike k.node = false) (st : St) :
    OkAt (uses cx k.node) st (k.act st) := by
  have := h st
  rwa [kidStart, hi] at this

/-- Kids none of which is an item of a list. -/
def Blocks (kids : List Kid) : Prop := ∀ k ∈ kids, isItemLike k.node = false

def kidUses (cx : Cx) (kids : List Kid) : Uses := usesList cx (kids.map (·.node))

theorem kidUses_cons (cx : Cx) (k : Kid) (ks : List Kid) :
    kidUses cx (k :: ks) = uses cx k.node ++ kidUses cx ks := rfl

theorem runKids_ok {cx : Cx} {kids : List Kid} (h : ∀ k ∈ kids, KidOk cx k) (hb : Blocks kids) :
    ∀ st, OkAt (kidUses cx kids) st (runKids kids st) := by
  induction kids with
  | nil => exact OkAt.refl
  | cons k ks ih =>
    intro st
    rw [kidUses_cons]
    exact ((h k (by simp)).act (hb k (by simp)) st).trans
      (ih (fun k hk => h k (by simp [hk])) (fun k hk => hb k (by simp [hk])) (k.act st))

/-- The same with items: the counter advances. -/
theorem runKids_items {cx : Cx} {kids : List Kid} (h : ∀ k ∈ kids, KidOk cx k) :
    ∀ st, OkAt (kidUses cx kids)
      { st with listItemIndex := st.listItemIndex + (kids.filter fun k => isItemLike k.node).length }
      (runKids kids st) := by
  induction kids with
  | nil => exact OkAt.refl
  | cons k ks ih =>
    intro st
    have h1 := h k (by simp) st
    have h2 := ih (fun k hk => h k (by simp [hk])) (k.act st)
    rw [kidUses_cons]
    have hidx : (k.act st).listItemIndex = (kidStart k st).listItemIndex :=
      congrArg CtxSt.listItemIndex h1.ctx
    have h3 : OkAt (uses cx k.node)
        { st with listItemIndex := st.listItemIndex + ((k :: ks).filter fun k => isItemLike k.node).length }
        { k.act st with listItemIndex := (k.act st).listItemIndex +
          (ks.filter fun k => isItemLike k.node).length } := by
      rw [kidStart] at h1 hidx
      rw [List.filter_cons]
      split at h1
      · rename_i hi
        rw [if_pos hi] at hidx ⊢
        refine ⟨h1.out, h1.core, ?_, h1.dd, h1.cov⟩
        have := h1.ctx
        simp only [ctx, CtxSt.mk.injEq] at this ⊢
        refine ⟨?_, this.2⟩
        simp only [hidx, List.length_cons]
        omega
      · rename_i hi
        rw [if_neg hi] at hidx ⊢
        refine ⟨h1.out, h1.core, ?_, h1.dd, h1.cov⟩
        have := h1.ctx
        simp only [ctx, CtxSt.mk.injEq] at this ⊢
        exact ⟨by rw [hidx], this.2⟩
    exact h3.trans h2


/-! ### The block serializers -/

theorem serHeading_ok (cx : Cx) (level : Nat) (cs : List Node) (st : St) :
    OkAt (usesOf (collectTexts cx cs)) st (serHeading cx level cs st) :=
  (okAt_addReferences _ st).push _

theorem serParagraph_ok (cx : Cx) (p : Pos) (cs : List Node) (st : St) :
    OkAt (uses cx (.mk .paragraph p cs)) st (serParagraph cx p cs st) := by
  rw [serParagraph, uses]
  cases abbreviationDef cx p with
  | some src => exact (okAt_push _ _).mono (by simp [Uses.le])
  | none =>
    simp only [Option.isSome_none, Bool.false_eq_true, if_false]
    split
    · exact (okAt_addReferences _ st).push _
    · exact (okAt_addReferences _ st).push _

theorem okAt_codeWarning (st : St) (w : Option (List Char)) : OkAt .none st (addCodeWarning st w) := by
  cases w with
  | none => exact OkAt.refl _
  | some m => exact okAt_warn _ _

theorem serTable_ok (cx : Cx) (p q : Pos) (aligns : List Align) (rows : List Node) (st : St) :
    OkAt (uses cx (.mk (.table aligns) q rows)) st (serTable cx p aligns rows st) := by
  rw [serTable, uses]
  split
  · rename_i h
    rw [List.isEmpty_iff] at h
    subst h
    exact OkAt.refl _
  · refine (((okAt_warn st _).trans (okAt_addReferences _ _)).push _).mono ?_
    have e : (((rows.map fun r => r.children.map (cellInline cx)).flatten).flatMap (·.2)) =
        rows.flatMap fun r => r.children.flatMap fun c => (collectInlines cx c.children).2 := by
      induction rows with
      | nil => rfl
      | cons r rs ih =>
        rw [List.map_cons, List.flatten_cons, List.flatMap_append, List.flatMap_cons]
        congr 1
        · rw [List.flatMap_map]; rfl
        · cases rs with
          | nil => rfl
          | cons r' rs => exact ih (by simp)
    simp [Uses.le, e]

theorem ctx_eq {a b : St} (h : ctx b = ctx a) :
    b.listItemIndex = a.listItemIndex ∧ b.listType = a.listType ∧ b.listTight = a.listTight ∧
    b.inBlockQuote = a.inBlockQuote ∧ b.blockquotePrefix = a.blockquotePrefix ∧
    b.listDepth = a.listDepth ∧ b.inDescriptionDetails = a.inDescriptionDetails ∧
    b.orderedListMaxItems = a.orderedListMaxItems ∧ b.listItemIndent = a.listItemIndent ∧
    b.blockquoteOuterIndent = a.blockquoteOuterIndent ∧
    b.blockquoteEntryListDepth = a.blockquoteEntryListDepth := by
  simpa only [ctx, CtxSt.mk.injEq] using h

theorem serList_ok {cx : Cx} {kids : List Kid} (h : ∀ k ∈ kids, KidOk cx k) (type : ListType)
    (tight : Bool) (st : St) : OkAt (kidUses cx kids) st (serList type tight kids st) := by
  rw [serList]
  have h1 := runKids_items h { st with
    listType := some type
    listTight := tight
    listItemIndex := 0
    listDepth := st.listDepth + 1
    orderedListMaxItems := if type = .ordered then (kids.filter fun k => k.node.isItem).length
      else st.orderedListMaxItems }
  refine ⟨h1.out, h1.core, ?_, h1.dd, h1.cov⟩
  have h2 := ctx_eq h1.ctx
  simp only [ctx, CtxSt.mk.injEq]
  simp only [h2]
  simp

theorem serItemChild_ok {cx : Cx} {k : Kid} (h : KidOk cx k) (hb : isItemLike k.node = false)
    (indent : List Char) (prev : Option Node) (st : St) :
    OkAt (uses cx k.node) st (serItemChild cx indent prev k st) := by
  have hp : ∀ s, OkAt (uses cx k.node) st (k.act (st.push s)) := fun s =>
    (h.act hb (st.push s)).after_push
  obtain ⟨⟨v, p, cs⟩, act⟩ := k
  unfold serItemChild
  cases v <;> simp only [Node.value] <;> try exact hp _
  all_goals try exact h.act hb st
  case codeBlock info literal =>
    rw [serCodeBlockIndented]
    refine (((okAt_push st _).trans (okAt_codeWarning _ _)).push _).mono ?_
    simp [uses, Uses.le]
  case paragraph =>
    cases prev with
    | none => exact h.act hb st
    | some p => exact hp _

theorem serItemChildren_ok {cx : Cx} (indent : List Char) {kids : List Kid}
    (h : ∀ k ∈ kids, KidOk cx k) (hb : Blocks kids) :
    ∀ (prev : Option Node) (st : St),
      OkAt (kidUses cx kids) st (serItemChildren cx indent prev kids st) := by
  induction kids with
  | nil => exact fun _ st => OkAt.refl st
  | cons k ks ih =>
    intro prev st
    rw [kidUses_cons, serItemChildren]
    exact (serItemChild_ok (h k (by simp)) (hb k (by simp)) _ _ _).trans
      (ih (fun k hk => h k (by simp [hk])) (fun k hk => hb k (by simp [hk])) _ _)

theorem serItem_ok {cx : Cx} {kids : List Kid} (h : ∀ k ∈ kids, KidOk cx k) (hb : Blocks kids)
    (task : Option (Option Char)) (st : St) :
    OkAt (kidUses cx kids) { st with listItemIndex := st.listItemIndex + 1 }
      (serItem cx task kids st) := by
  rw [serItem]
  generalize hs : ({ st with listItemIndex := st.listItemIndex + 1 } : St) = s1
  have h1 := serItemChildren_ok (itemIndent cx (s1.push (itemLead cx task s1))) h hb none
    { s1.push (itemLead cx task s1) with
      listItemIndent := itemIndent cx (s1.push (itemLead cx task s1)) }
  have h2 : OkAt (kidUses cx kids) s1
      { serItemChildren cx (itemIndent cx (s1.push (itemLead cx task s1))) none kids
        { s1.push (itemLead cx task s1) with
          listItemIndent := itemIndent cx (s1.push (itemLead cx task s1)) } with
        listItemIndent := (s1.push (itemLead cx task s1)).listItemIndent } := by
    refine ((okAt_push s1 (itemLead cx task s1)).trans (v := kidUses cx kids) ?_).mono (by simp [Uses.le])
    refine ⟨h1.out, h1.core, ?_, h1.dd, h1.cov⟩
    have h2 := ctx_eq h1.ctx
    simp only [ctx, CtxSt.mk.injEq]
    simp only [h2]
    simp
  split
  · exact h2
  · exact h2.push _

theorem serQuoteChildren_ok {cx : Cx} (sep : List Char) {kids : List Kid}
    (h : ∀ k ∈ kids, KidOk cx k) (hb : Blocks kids) :
    ∀ st : St, OkAt (kidUses cx kids) st (serQuoteChildren sep kids st) := by
  induction kids with
  | nil => exact fun st => OkAt.refl st
  | cons k ks ih =>
    intro st
    have h1 := (h k (by simp)).act (hb k (by simp)) st
    cases ks with
    | nil =>
      rw [serQuoteChildren, kidUses_cons]
      exact h1.mono (by simp [kidUses, usesList, Uses.le])
    | cons k' ks =>
      rw [serQuoteChildren.eq_3 _ _ _ _ (by simp), kidUses_cons]
      exact (h1.push sep).trans
        (ih (fun k hk => h k (by simp [hk])) (fun k hk => hb k (by simp [hk])) _)

theorem serBlockQuote_ok {cx : Cx} {kids : List Kid} (h : ∀ k ∈ kids, KidOk cx k)
    (hb : Blocks kids) (st : St) : OkAt (kidUses cx kids) st (serBlockQuote kids st) := by
  rw [serBlockQuote]
  have h1 := serQuoteChildren_ok (st.listItemIndent ++ st.blockquotePrefix ++ ['>', '\n']) h hb
    (enterQuote st)
  refine ⟨h1.out, h1.core, ?_, h1.dd, h1.cov⟩
  have h2 := ctx_eq h1.ctx
  simp only [ctx, CtxSt.mk.injEq, exitQuote]
  simp only [h2]
  simp [enterQuote]

theorem serAlert_ok {cx : Cx} {kids : List Kid} (h : ∀ k ∈ kids, KidOk cx k)
    (hb : Blocks kids) (type : AlertType) (p : Pos) (st : St) :
    OkAt (kidUses cx kids) st (serAlert type p kids st) := by
  rw [serAlert]
  split
  · exact (serBlockQuote_ok h hb _).after_push.after_push
  · exact (serBlockQuote_ok h hb _).after_push

theorem serDetailsParagraph_ok (cx : Cx) (bq lead : List Char) (p : Pos) (cs : List Node) (st : St) :
    OkAt (uses cx (.mk .paragraph p cs)) st (serDetailsParagraph cx bq lead cs st) := by
  rw [serDetailsParagraph, uses]
  refine ((okAt_addReferences _ st).push _).mono ?_
  split
  · simp [Uses.le]
  · simp [Uses.le, usesOf]

theorem withIndent4_ok {cx : Cx} {k : Kid} (h : KidOk cx k) (hb : isItemLike k.node = false)
    (st : St) : OkAt (uses cx k.node) st (withIndent4 k st) := by
  have h1 := h.act hb { st with listItemIndent := spaces 4 }
  refine ⟨h1.out, h1.core, ?_, h1.dd, h1.cov⟩
  have h2 := ctx_eq h1.ctx
  simp only [ctx, CtxSt.mk.injEq, withIndent4]
  simp only [h2]
  simp

theorem serDetailsChild_ok {cx : Cx} {k : Kid} (h : KidOk cx k) (hb : isItemLike k.node = false)
    (bq : List Char) (first : Bool) (st : St) :
    OkAt (uses cx k.node) st (serDetailsChild cx bq first k st) := by
  rw [serDetailsChild]
  split
  · have hp : ∀ s, OkAt (uses cx k.node) st (k.act (st.push s)) := fun s =>
      (h.act hb (st.push s)).after_push
    have hw : ∀ s, OkAt (uses cx k.node) st (withIndent4 k (st.push s)) := fun s =>
      (withIndent4_ok h hb (st.push s)).after_push
    obtain ⟨⟨v, p, cs⟩, act⟩ := k
    cases v <;> simp only [Node.value] <;> try first | exact hp _ | exact hw _
    case paragraph => exact serDetailsParagraph_ok cx _ _ p cs st
    case codeBlock info literal =>
      rw [serCodeBlockWithIndent]
      refine (((okAt_push st _).trans (okAt_codeWarning _ _)).push _).mono ?_
      simp [uses, Uses.le]
    case list t l =>
      generalize hs : st.push (bq ++ [':', ' ', ' ', ' ', ' ']) = s1
      have h1 := h.act hb { s1 with descriptionDetailsFirstList := true }
      have h2 : OkAt (uses cx (.mk (.list t l) p cs)) s1
          { act { s1 with descriptionDetailsFirstList := true } with
            descriptionDetailsFirstList := false } :=
        ⟨h1.out, h1.core, h1.ctx, fun _ => rfl, h1.cov⟩
      subst hs
      exact h2.after_push
  · refine OkAt.after_push (s := ['\n']) ?_
    generalize st.push ['\n'] = st
    have hp : ∀ s, OkAt (uses cx k.node) st (k.act (st.push s)) := fun s =>
      (h.act hb (st.push s)).after_push
    have hw := withIndent4_ok h hb st
    have h0 := h.act hb st
    obtain ⟨⟨v, p, cs⟩, act⟩ := k
    cases v <;> simp only [Node.value] <;> try first | exact h0 | exact hp _ | exact hw
    case paragraph => exact serDetailsParagraph_ok cx _ _ p cs st
    case codeBlock info literal =>
      rw [serCodeBlockWithIndent]
      refine (((okAt_push st _).trans (okAt_codeWarning _ _)).push _).mono ?_
      simp [uses, Uses.le]

theorem serDetailsFold_ok {cx : Cx} (bq : List Char) {kids : List Kid}
    (h : ∀ k ∈ kids, KidOk cx k) (hb : Blocks kids) : ∀ st : St, OkAt (kidUses cx kids) st
      (kids.foldl (fun st k => serDetailsChild cx bq false k st) st) := by
  induction kids with
  | nil => exact OkAt.refl
  | cons k ks ih =>
    intro st
    rw [kidUses_cons, List.foldl_cons]
    exact (serDetailsChild_ok (h k (by simp)) (hb k (by simp)) _ _ _).trans
      (ih (fun k hk => h k (by simp [hk])) (fun k hk => hb k (by simp [hk])) _)

theorem serDetails_ok {cx : Cx} {kids : List Kid} (h : ∀ k ∈ kids, KidOk cx k)
    (hb : Blocks kids) (st : St) : OkAt (kidUses cx kids) st (serDetails cx kids st) := by
  unfold serDetails
  have key : ∀ x : St, OkAt (kidUses cx kids) { st with inDescriptionDetails := true } x →
      OkAt (kidUses cx kids) st { x with inDescriptionDetails := st.inDescriptionDetails } := by
    intro x h1
    refine ⟨h1.out, h1.core, ?_, h1.dd, h1.cov⟩
    have h2 := ctx_eq h1.ctx
    simp only [ctx, CtxSt.mk.injEq]
    simp only [h2]
    simp
  apply key
  cases kids with
  | nil => exact OkAt.refl _
  | cons k ks =>
    exact (serDetailsChild_ok (h k (by simp)) (hb k (by simp)) _ _ _).trans
      (serDetailsFold_ok _ (fun k hk => h k (by simp [hk])) (fun k hk => hb k (by simp [hk])) _)

theorem serDescriptionList_ok {cx : Cx} {kids : List Kid} (h : ∀ k ∈ kids, KidOk cx k)
    (hb : Blocks kids) : ∀ st : St, OkAt (kidUses cx kids) st (serDescriptionList kids st) := by
  induction kids with
  | nil => exact fun st => OkAt.refl st
  | cons k ks ih =>
    intro st
    have h1 := (h k (by simp)).act (hb k (by simp)) st
    cases ks with
    | nil =>
      rw [serDescriptionList, kidUses_cons]
      exact h1.mono (by simp [kidUses, usesList, Uses.le])
    | cons k' ks =>
      rw [serDescriptionList.eq_3 _ _ _ (by simp), kidUses_cons]
      exact (h1.push _).trans
        (ih (fun k hk => h k (by simp [hk])) (fun k hk => hb k (by simp [hk])) _)

theorem any_isImage (kids : List Kid) :
    (kids.any fun k => k.node.isImage) = (kids.map (·.node)).any Node.isImage := by
  rw [List.any_map]; rfl

theorem serLink_ok {cx : Cx} {kids : List Kid} (h : ∀ k ∈ kids, KidOk cx k) (hb : Blocks kids)
    (p : Pos) (url title : List Char) (nb : Bool) (st : St) :
    OkAt (uses cx (.mk (.link url title) p (kids.map (·.node)))) st
      (serLink cx p url title nb kids st) := by
  have hk := runKids_ok h hb
  rw [serLink, uses]
  simp only [any_isImage]
  cases referenceStyleInfo cx p with
  | some tl =>
    obtain ⟨text, label⟩ := tl
    simp only []
    split
    · exact ((hk (st.push ['['])).after_push.push _).trans
        (okAt_addReference _ ⟨(stripPrefix? [collapsedMark] label).getD label, url, title⟩)
    · exact (okAt_addReferences _ _).push _
  | none =>
    simp only []
    split
    · exact (hk _).after_push.push _
    · split
      · exact okAt_push _ _
      · split
        · exact ((okAt_addReferences (collectTexts cx (kids.map (·.node))).2 st).trans
            (okAt_addReferences (formatExternalLink (collectTexts cx (kids.map (·.node))).1 url title nb).2
              _)).push _
        · exact ((okAt_addReferences _ _).push _).mono (by simp [usesOf, Uses.le])

theorem serImage_ok (cx : Cx) (p : Pos) (url title : List Char) (cs : List Node) (st : St) :
    OkAt (uses cx (.mk (.image url title) p cs)) st (serImage cx p url title cs st) := by
  rw [serImage, uses]
  cases referenceStyleInfo cx p with
  | some tl => exact ((okAt_addReferences _ _).trans (okAt_addReferences _ _)).push _
  | none => exact ((okAt_addReferences _ _).push _).mono (by simp [usesOf, Uses.le])

theorem footnoteBlocks_ok {cx : Cx} {kids : List Kid} (h : ∀ k ∈ kids, KidOk cx k)
    (hb : Blocks kids) : ∀ (first : Bool) (acc : List Char) (st : St),
      OkAt (kidUses cx kids) st (footnoteBlocks first kids acc st).2 := by
  induction kids with
  | nil => exact fun _ _ st => OkAt.refl st
  | cons k ks ih =>
    intro first acc st
    rw [kidUses_cons, footnoteBlocks]
    have h1 := (h k (by simp)).act (hb k (by simp)) { st with output := [] }
    have h2 : OkAt (uses cx k.node) st
        { k.act { st with output := [] } with output := st.output } :=
      ⟨List.prefix_rfl, h1.core, h1.ctx, h1.dd, h1.cov⟩
    exact h2.trans
      (ih (fun k hk => h k (by simp [hk])) (fun k hk => hb k (by simp [hk])) _ _ _)

theorem serFootnoteDefinition_ok {cx : Cx} {kids : List Kid} (h : ∀ k ∈ kids, KidOk cx k)
    (hb : Blocks kids) (p : Pos) (name : List Char) (st : St) :
    OkAt (uses cx (.mk (.footnoteDefinition name) p (kids.map (·.node)))) st
      (serFootnoteDefinition cx name kids st) := by
  rw [serFootnoteDefinition, uses]
  generalize hs : ({ st with footnotes := { st.footnotes with
    collecting := true
    currentReferenceLine := (st.footnotes.referenceLines.lookup name).getD 0 } } : St) = s1
  have key : ∀ (ls : Uses) (x : List Char × St), OkAt ls s1 x.2 → OkAt (ls ++ ⟨[], [], [name]⟩) st { x.2 with
      footnotes := { x.2.footnotes with
        collecting := false
        currentReferenceLine := 0
        pending := mapInsert name ⟨name, x.1, (st.footnotes.referenceLines.lookup name).getD 0,
          hasBlocks (kids.map (·.node))⟩ x.2.footnotes.pending } } := by
    intro ls x hx
    replace hx : OkAt (ls ++ ⟨[], [], [name]⟩) s1 x.2 := hx.mono (by simp +contextual [Uses.le])
    subst hs
    refine ⟨hx.out, ?_, hx.ctx, hx.dd, hx.cov⟩
    have hc := hx.core
    exact ⟨hc.warnings, hc.emitted, hc.fnEmitted, hc.skip, hc.proper, hc.common, hc.panicked,
      fun _ => rfl, hc.pending, hc.fnPending.trans (MapGrow.insert (fun f : Footnote => f.name) _ _ ⟨name, x.1, _, _⟩ (by simp)),
      hc.fnRefs, hc.refLines⟩
  simp only []
  apply key
  split
  · exact footnoteBlocks_ok h hb _ _ _
  · exact okAt_addReferences _ _

/-! ### All nodes -/

theorem serKids_nodes (cx : Cx) (cs : List Node) : (serKids cx cs).map (·.node) = cs := by
  induction cs with
  | nil => rfl
  | cons c cs ih => rw [serKids, List.map_cons, ih]

theorem serKids_labels (cx : Cx) (cs : List Node) : kidUses cx (serKids cx cs) = usesList cx cs := by
  rw [kidUses, serKids_nodes]

theorem dispatch_ok {cx : Cx} {kids : List Kid} (h : ∀ k ∈ kids, KidOk cx k) (v : NodeValue)
    (p : Pos) (nb : Bool) (st : St) (hv : v ≠ .document)
    (hb : isListValue v = true ∨ Blocks kids) :
    OkAt (uses cx (.mk v p (kids.map (·.node))))
      (kidStart ⟨.mk v p (kids.map (·.node)), fun st => st⟩ st) (dispatch cx v p kids nb st) := by
  have hr : ∀ hb : Blocks kids, ∀ st, OkAt (usesList cx (kids.map (·.node))) st (runKids kids st) :=
    fun hb => runKids_ok h hb
  have hs : ∀ {v : NodeValue}, isItemLike (.mk v p (kids.map (·.node))) = false →
      kidStart ⟨.mk v p (kids.map (·.node)), fun st => st⟩ st = st := by
    intro v hv
    rw [kidStart, hv]
    rfl
  cases v
  case document => exact absurd rfl hv
  case list type tight =>
    rw [hs rfl]
    simp only [uses]
    exact serList_ok h _ _ _
  all_goals have hb : Blocks kids := hb.resolve_left (by simp [isListValue])
  case item => exact serItem_ok h hb _ st
  case taskItem s => exact serItem_ok h hb _ st
  all_goals rw [hs rfl]
  case heading => exact serHeading_ok _ _ _ _
  case paragraph => exact serParagraph_ok _ _ _ _
  case table => exact serTable_ok _ _ _ _ _ _
  case link => exact serLink_ok h hb _ _ _ _ _
  case image => exact serImage_ok _ _ _ _ _ _
  case footnoteDefinition => exact serFootnoteDefinition_ok h hb _ _ _
  all_goals simp only [uses]
  case codeBlock info literal => exact (okAt_codeWarning _ _).push _
  case blockQuote => exact serBlockQuote_ok h hb _
  case alert => exact serAlert_ok h hb _ _ _
  case descriptionList => exact serDescriptionList_ok h hb _
  case descriptionDetails => exact serDetails_ok h hb _
  case emph => exact (hr hb _).after_push.push _
  case strong => exact (hr hb _).after_push.push _
  case footnoteReference =>
    refine OkAt.push (b := recordReferenceLine _ p.startLine st) ?_ _
    exact ⟨List.prefix_rfl, ⟨List.prefix_rfl, rfl, rfl, rfl, rfl, rfl, rfl, id, .refl _ _ _, .refl _ _ _, .refl _ _ _,
      fun _ _ h => mapOrInsert_lookup h⟩, rfl, id, by simp⟩
  all_goals first | exact okAt_push _ _ | exact OkAt.refl _ | exact hr hb _

mutual
theorem ser_ok (cx : Cx) : ∀ (n : Node) (nb : Bool), wellPlaced n = true → KidOk cx ⟨n, ser cx n nb⟩
  | .mk v p cs, nb, h => by
    intro st
    rw [wellPlaced, Bool.and_eq_true, Bool.and_eq_true, decide_eq_true_eq, Bool.or_eq_true] at h
    obtain ⟨⟨hv, hi⟩, hc⟩ := h
    have hk := serKids_ok cx cs hc
    have := dispatch_ok hk v p nb st hv (hi.imp_right (fun h k hkm => by
      have hm : k.node ∈ (serKids cx cs).map (·.node) := List.mem_map.mpr ⟨k, hkm, rfl⟩
      rw [serKids_nodes] at hm
      simpa using List.all_eq_true.mp h _ hm))
    rw [serKids_nodes] at this
    simp only [ser]
    exact this

theorem serKids_ok (cx : Cx) : ∀ (cs : List Node), wellPlacedList cs = true →
    ∀ k ∈ serKids cx cs, KidOk cx k
  | [], _, k, hk => by simp [serKids] at hk
  | n :: ns, h, k, hk => by
    rw [wellPlacedList, Bool.and_eq_true] at h
    rw [serKids] at hk
    rcases List.mem_cons.mp hk with rfl | hk
    · exact ser_ok cx n _ h.1
    · exact serKids_ok cx ns h.2 k hk
end

end Hongdown
