import Verif.Lemmas.Frame

set_option linter.unusedSimpArgs false

/-!
# Whole documents: references and footnotes
-/

namespace Hongdown
open Model Spec

/-- The invariant of `RefRun` for some references among `M` which have the labels of the
references `ls`, and some footnotes with the names `ns`. -/
def Good (cx : Cx) (M ls : List Ref) (ns : List (List Char)) (st : St) : Prop :=
  ∃ (A : List Ref) (F : List Footnote), RefInv cx A F st ∧ (∀ r ∈ A, r ∈ M) ∧
    (∀ l ∈ ls, ∃ r ∈ A, r.label = l.label) ∧ ∀ n ∈ ns, ∃ f ∈ F, f.name = n

theorem Good.mono {cx : Cx} {M ls ls' : List Ref} {ns ns' : List (List Char)} {st : St}
    (h : Good cx M ls ns st)
    (hl : ∀ l ∈ ls', l ∈ ls) (hn : ∀ n ∈ ns', n ∈ ns) : Good cx M ls' ns' st := by
  obtain ⟨A, F, h, h0, h1, h2⟩ := h
  exact ⟨A, F, h, h0, fun l hm => h1 l (hl l hm), fun n hm => h2 n (hn n hm)⟩

theorem good_empty (cx : Cx) (M : List Ref) : Good cx M [] [] {} :=
  ⟨[], [], refInv_empty cx, by simp, by simp, by simp⟩

/-- The parts of the state which the invariant reads. -/
structure RefView where
  output : List Char
  pending : List (List Char × Ref)
  emitted : List (List Char)
  fnPending : List (List Char × Footnote)
  fnEmitted : List (List Char)
  fnRefs : List (List Char × (Ref × Nat))

def refView (st : St) : RefView :=
  ⟨st.output, st.pendingReferences, st.emittedReferences, st.footnotes.pending,
    st.footnotes.emitted, st.footnotes.pendingReferences⟩

theorem RefInv.view {cx : Cx} {A : List Ref} {F : List Footnote} {a b : St} (h : RefInv cx A F a)
    (hv : refView b = refView a) : RefInv cx A F b := by
  simp only [refView, RefView.mk.injEq] at hv
  obtain ⟨h1, h2, h3, h4, h5, h6⟩ := hv
  exact ⟨h3 ▸ h.emN, h2 ▸ h.pN, h2 ▸ h.pL, h6 ▸ h.qN, h6 ▸ h.qL, h4 ▸ h.fN, h4 ▸ h.fL, h5 ▸ h.feN,
    h3 ▸ h1 ▸ h.emT, h5 ▸ h1 ▸ h.feT, h3 ▸ h2 ▸ h6 ▸ h.cov, h5 ▸ h4 ▸ h.covF⟩

theorem Good.view {cx : Cx} {M ls : List Ref} {ns : List (List Char)} {a b : St}
    (h : Good cx M ls ns a) (hv : refView b = refView a) : Good cx M ls ns b := by
  obtain ⟨A, F, h, h1⟩ := h
  exact ⟨A, F, h.view hv, h1⟩

/-- Adding references and footnotes and text, without a flush. -/
theorem RefInv.grow {cx : Cx} {M A : List Ref} {N : List (List Char)} {F : List Footnote} {a b : St}
    (h : RefInv cx A F a) (hM : ∀ r ∈ A, r ∈ M) (ho : a.output <+: b.output)
    (hc : CoreRel M N (core a) (core b)) :
    ∃ (A' : List Ref) (F' : List Footnote), RefInv cx A' F' b ∧ (∀ r ∈ A', r ∈ M) ∧
      (∀ r ∈ A, r ∈ A') ∧ (∀ f ∈ F, f ∈ F') := by
  obtain ⟨t, ht⟩ := ho
  obtain ⟨vs, mvs, hvs⟩ := hc.pending
  obtain ⟨fs, _, hfs⟩ := hc.fnPending
  obtain ⟨ws, mws, hws⟩ := hc.fnRefs
  -- references outside footnotes
  have s1 : ∀ (vs : List Ref) (A : List Ref) (c : St), RefInv cx A F c →
      RefInv cx (vs.reverse ++ A) F { c with
        pendingReferences := vs.foldl (fun m v => mapInsert v.label v m) c.pendingReferences } := by
    intro vs
    induction vs with
    | nil => exact fun A c h => h.view rfl
    | cons v vs ih =>
      intro A c h
      have h0 : RefInv cx A F { c with footnotes := { c.footnotes with collecting := false } } :=
        h.view rfl
      have h1 := h0.add v
      rw [addReference, if_neg (by simp)] at h1
      have h2 := ih _ _ h1
      rw [List.reverse_cons, List.append_assoc]
      exact h2.view rfl
  have s2 : ∀ (ws : List (Ref × Nat)) (A : List Ref) (c : St), RefInv cx A F c →
      RefInv cx ((ws.map (·.1)).reverse ++ A) F { c with footnotes := { c.footnotes with
        pendingReferences := ws.foldl (fun m v => mapInsert v.1.label v m)
          c.footnotes.pendingReferences } } := by
    intro ws
    induction ws with
    | nil => exact fun A c h => h.view rfl
    | cons v vs ih =>
      intro A c h
      have h0 : RefInv cx A F { c with footnotes := { c.footnotes with
          collecting := true, currentReferenceLine := v.2 } } := h.view rfl
      have h1 := h0.add v.1
      rw [addReference, if_pos (by simp)] at h1
      have h2 := ih _ _ h1
      rw [List.map_cons, List.reverse_cons, List.append_assoc]
      exact h2.view rfl
  have s3 : ∀ (fs : List Footnote) (A : List Ref) (F : List Footnote) (c : St), RefInv cx A F c →
      ∃ F', RefInv cx A F' { c with footnotes := { c.footnotes with
        pending := fs.foldl (fun m v => mapInsert v.name v m) c.footnotes.pending } } ∧
        ∀ f ∈ F, f ∈ F' := by
    intro fs
    induction fs with
    | nil => exact fun A F c h => ⟨F, h.view rfl, fun _ h => h⟩
    | cons v vs ih =>
      intro A F c h
      obtain ⟨F', h2, h3⟩ := ih _ _ _ (h.footnote v)
      exact ⟨F', h2.view rfl, fun r hr => h3 r (by simp [hr])⟩
  have h1 := s1 vs A (a.push t) (h.text t)
  have h2 := s2 ws _ _ h1
  obtain ⟨F2, h3, i3⟩ := s3 fs _ F _ h2
  refine ⟨_, F2, h3.view ?_, ?_, fun r hr => by simp [hr], i3⟩
  · simp only [refView, RefView.mk.injEq]
    exact ⟨ht.symm, hvs, hc.emitted, hfs, hc.fnEmitted, hws⟩
  · intro r hr
    rcases List.mem_append.mp hr with hr | hr
    · obtain ⟨v, hv, rfl⟩ := List.mem_map.mp (List.mem_reverse.mp hr)
      exact mws v hv
    · rcases List.mem_append.mp hr with hr | hr
      · exact mvs r (List.mem_reverse.mp hr)
      · exact hM r hr

theorem Good.ok {cx : Cx} {M ls : List Ref} {ns : List (List Char)} {u : Uses} {a b : St}
    (h : Good cx M ls ns a) (ho : OkAt u a b) (hu : ∀ r ∈ u.may, r ∈ M) :
    Good cx M (ls ++ u.must) ns b := by
  obtain ⟨A, F, h, h0, h1, h2⟩ := h
  obtain ⟨A', F', h3, hM, h4, h5⟩ := h.grow h0 ho.out (ho.core.weaken hu fun _ h => h)
  refine ⟨A', F', h3, hM, ?_, fun n hn => ?_⟩
  · intro l hl
    rcases List.mem_append.mp hl with hl | hl
    · obtain ⟨r, hr, he⟩ := h1 l hl
      exact ⟨r, h4 r hr, he⟩
    · have := ho.cov l hl
      rw [known, List.mem_append] at this
      rcases this with hm | hm
      · obtain ⟨e, he, e2⟩ := List.mem_map.mp hm
        exact ⟨e.2, (h3.pL e he).2, by rw [← e2]; exact (h3.pL e he).1.symm⟩
      · obtain ⟨e, he, e2⟩ := List.mem_map.mp hm
        exact ⟨e.2.1, (h3.qL e he).2, by rw [← e2]; exact (h3.qL e he).1.symm⟩
  · obtain ⟨f, hf, he⟩ := h2 n hn
    exact ⟨f, h5 f hf, he⟩

theorem Good.push {cx : Cx} {M ls : List Ref} {ns : List (List Char)} {a : St}
    (h : Good cx M ls ns a) (s : List Char) : Good cx M ls ns (a.push s) :=
  (h.ok (okAt_push a s) (by simp)).mono (by simp) (fun _ h => h)

theorem Good.flushAll {cx : Cx} {M ls : List Ref} {ns : List (List Char)} {a : St}
    (h : Good cx M ls ns a) (b : Option Nat) : Good cx M ls ns (flushAll cx b a) := by
  obtain ⟨A, F, h, h1⟩ := h
  exact ⟨A, F, h.flushAll b, h1⟩

/-! ### What flushing leaves alone -/

theorem flushAll_output (cx : Cx) (b : Option Nat) (st : St) : st.output <+: (flushAll cx b st).output := by
  rw [flushAll, flushFootnoteRefs_eq, flushReferences_eq, flushFootnotes_eq]
  simp only [List.append_assoc]
  exact List.prefix_append _ _

theorem flushAll_rest (cx : Cx) (b : Option Nat) (st : St) :
    (flushAll cx b st).skipMode = st.skipMode ∧ (flushAll cx b st).warnings = st.warnings ∧
    ctx (flushAll cx b st) = ctx st ∧
    (flushAll cx b st).directiveProperNouns = st.directiveProperNouns ∧
    (flushAll cx b st).directiveCommonNouns = st.directiveCommonNouns ∧
    (flushAll cx b st).descriptionDetailsFirstList = st.descriptionDetailsFirstList := by
  rw [flushAll, flushFootnoteRefs_eq, flushReferences_eq, flushFootnotes_eq]
  simp [ctx]

/-! ### The loop over the top-level blocks -/

/-- Output and warnings only grow, the context stays. -/
structure Grows (a b : St) : Prop where
  out : a.output <+: b.output
  warnings : a.warnings <+: b.warnings
  ctx : ctx b = ctx a

theorem Grows.refl (a : St) : Grows a a := ⟨List.prefix_rfl, List.prefix_rfl, rfl⟩

theorem Grows.trans {a b c : St} (h : Grows a b) (h' : Grows b c) : Grows a c :=
  ⟨h.out.trans h'.out, h.warnings.trans h'.warnings, h'.ctx.trans h.ctx⟩

theorem OkAt.grows {ls : Uses} {a b : St} (h : OkAt ls a b) : Grows a b :=
  ⟨h.out, h.core.warnings, h.ctx⟩

theorem grows_push (a : St) (s : List Char) : Grows a (a.push s) := (okAt_push a s).grows

theorem grows_flushAll (cx : Cx) (b : Option Nat) (st : St) : Grows st (flushAll cx b st) := by
  obtain ⟨_, h2, h3, _⟩ := flushAll_rest cx b st
  exact ⟨flushAll_output cx b st, by rw [h2]; exact List.prefix_rfl, h3⟩

section
variable {cx : Cx} {k : Kid}

theorem serTopBlock_grows (h : KidOk cx k) (hb : isItemLike k.node = false) (st : St) :
    Grows st (serTopBlock cx k st) := by
  have ha := fun st => (h.act hb st).grows
  rw [serTopBlock]
  split
  · exact ha st
  · split
    · exact (Grows.mk List.prefix_rfl List.prefix_rfl rfl : Grows st { st with skipMode := .none }).trans (ha _)
    · have h1 : Grows st (if st.skipMode = .nextBlock then { st with skipMode := .none } else st) := by
        split
        · exact ⟨List.prefix_rfl, List.prefix_rfl, rfl⟩
        · exact Grows.refl st
      generalize (if st.skipMode = .nextBlock then { st with skipMode := .none } else st) = st' at h1
      cases extractSource cx k.node.pos with
      | some source => exact h1.trans (grows_push _ _)
      | none => exact h1.trans (ha _)

theorem serTopBlock_good {M ls : List Ref} {ns : List (List Char)} (h : KidOk cx k)
    (hM : ∀ r ∈ (uses cx k.node).may, r ∈ M) (hb : isItemLike k.node = false) {st : St} (hg : Good cx M ls ns st) :
    Good cx M ls ns (serTopBlock cx k st) := by
  have ha : ∀ st, Good cx M ls ns st → Good cx M ls ns (k.act st) := fun st hg =>
    (hg.ok (h.act hb st) hM).mono (by simp +contextual) (fun _ h => h)
  rw [serTopBlock]
  split
  · exact ha st hg
  · split
    · exact ha _ (hg.view rfl)
    · have h1 : Good cx M ls ns (if st.skipMode = .nextBlock then { st with skipMode := .none } else st) := by
        split
        · exact hg.view rfl
        · exact hg
      generalize (if st.skipMode = .nextBlock then { st with skipMode := .none } else st) = st' at h1
      cases extractSource cx k.node.pos with
      | some source => exact h1.push _
      | none => exact ha _ h1

theorem serTopChild_grows (h : KidOk cx k) (hb : isItemLike k.node = false) (prev : Option Node)
    (tr : Bool) (st : St) : Grows st (serTopChild cx prev tr k st).1 := by
  have hf := grows_flushAll cx (some k.node.pos.startLine) st
  have hp := grows_push
  rw [serTopChild]
  split
  · exact Grows.refl st
  · split
    · exact Grows.refl st
    · split
      · rename_i d _
        cases d with
        | disableFile =>
          simp only []
          split
          · exact hf.trans ((hp _ _).trans (hp _ _))
          · exact hf.trans (hp _ _)
        | disableNextLine => exact ⟨(hf.trans (hp _ _)).out, hf.warnings, hf.ctx⟩
        | disableNextSection => exact ⟨(hf.trans (hp _ _)).out, hf.warnings, hf.ctx⟩
        | disable => exact ⟨(hf.trans (hp _ _)).out, hf.warnings, hf.ctx⟩
        | enable => exact ⟨(hp st _).out, List.prefix_rfl, rfl⟩
        | properNouns ns => exact ⟨(hp st _).out, List.prefix_rfl, rfl⟩
        | commonNouns ns => exact ⟨(hp st _).out, List.prefix_rfl, rfl⟩
      · simp only []
        split
        · exact hf.trans ((hp _ _).trans (serTopBlock_grows h hb _))
        · exact (hp _ _).trans (serTopBlock_grows h hb _)

theorem serTopChild_good {M ls : List Ref} {ns : List (List Char)} (h : KidOk cx k)
    (hM : ∀ r ∈ (uses cx k.node).may, r ∈ M) (hb : isItemLike k.node = false) (prev : Option Node) (tr : Bool) {st : St}
    (hg : Good cx M ls ns st) : Good cx M ls ns (serTopChild cx prev tr k st).1 := by
  have hf := hg.flushAll (some k.node.pos.startLine)
  rw [serTopChild]
  split
  · exact hg
  · split
    · exact hg
    · split
      · rename_i d _
        cases d with
        | disableFile =>
          simp only []
          split
          · exact (hf.push _).push _
          · exact hf.push _
        | disableNextLine => exact (hf.push _).view rfl
        | disableNextSection => exact (hf.push _).view rfl
        | disable => exact (hf.push _).view rfl
        | enable => exact (hg.push _).view rfl
        | properNouns ns => exact (hg.push _).view rfl
        | commonNouns ns => exact (hg.push _).view rfl
      · simp only []
        split
        · exact serTopBlock_good h hM hb (hf.push _)
        · exact serTopBlock_good h hM hb (hg.push _)

/-- A node that is no directive, with formatting on: it is serialized. -/
theorem serTopChild_used {M ls : List Ref} {ns : List (List Char)} (h : KidOk cx k)
    (hM : ∀ r ∈ (uses cx k.node).may, r ∈ M) (hb : isItemLike k.node = false) (prev : Option Node) (tr : Bool) {st : St}
    (hg : Good cx M ls ns st) (hs : st.skipMode = .none) (hd : k.node.directive = none)
    (hfn : k.node.isFootnoteDefinition = false) :
    Good cx M (ls ++ (uses cx k.node).must) ns (serTopChild cx prev tr k st).1 ∧
    (serTopChild cx prev tr k st).1.skipMode = .none ∧ (serTopChild cx prev tr k st).2 = false := by
  have hf := hg.flushAll (some k.node.pos.startLine)
  have hfs := (flushAll_rest cx (some k.node.pos.startLine) st).1
  rw [serTopChild]
  split
  · rename_i ht
    have : uses cx k.node = .none := by
      obtain ⟨⟨v, p, cs⟩, act⟩ := k
      cases v <;> simp [Node.html?, Node.value] at ht ⊢
      simp [uses]
    rw [this, Uses.none_must, List.append_nil]
    exact ⟨hg, hs, rfl⟩
  · rw [if_neg (by simp [hfn]), hd]
    simp only []
    have key : ∀ st, Good cx M ls ns st → st.skipMode = .none →
        Good cx M (ls ++ (uses cx k.node).must) ns (serTopBlock cx k (st.push (blockGap prev k.node))) ∧
        (serTopBlock cx k (st.push (blockGap prev k.node))).skipMode = .none := by
      intro st hg hs
      have ha := h.act hb (st.push (blockGap prev k.node))
      rw [serTopBlock, if_pos (by exact hs)]
      exact ⟨(hg.push _).ok ha hM, by
        have : (k.act (st.push (blockGap prev k.node))).skipMode =
          (st.push (blockGap prev k.node)).skipMode := ha.core.skip
        rw [this]; exact hs⟩
    split
    · obtain ⟨h1, h2⟩ := key _ hf (hfs.trans hs)
      exact ⟨h1, h2, trivial⟩
    · obtain ⟨h1, h2⟩ := key _ hg hs
      exact ⟨h1, h2, trivial⟩

end

/-- All references of the kids are in `M`. -/
def MayIn (cx : Cx) (M : List Ref) (kids : List Kid) : Prop :=
  ∀ k ∈ kids, ∀ r ∈ (uses cx k.node).may, r ∈ M

theorem serTopLoop_grows {cx : Cx} {kids : List Kid} (h : ∀ k ∈ kids, KidOk cx k)
    (hb : Blocks kids) : ∀ (prev : Option Node) (m : Nat) (st : St),
      Grows st (serTopLoop cx prev m kids st).1 := by
  induction kids with
  | nil => exact fun _ _ st => Grows.refl st
  | cons k ks ih =>
    intro prev m st
    have h1 := serTopChild_grows (h k (by simp)) (hb k (by simp)) prev (m == 0) st
    rw [serTopLoop]
    split
    · exact h1
    · exact h1.trans (ih (fun k hk => h k (by simp [hk])) (fun k hk => hb k (by simp [hk])) _ _ _)

theorem serTopLoop_good {cx : Cx} {M ls : List Ref} {ns : List (List Char)} {kids : List Kid}
    (h : ∀ k ∈ kids, KidOk cx k) (hM : MayIn cx M kids) (hb : Blocks kids) : ∀ (prev : Option Node) (m : Nat) (st : St),
      Good cx M ls ns st → Good cx M ls ns (serTopLoop cx prev m kids st).1 := by
  induction kids with
  | nil => exact fun _ _ st hg => hg
  | cons k ks ih =>
    intro prev m st hg
    have h1 := serTopChild_good (h k (by simp)) (hM k (by simp)) (hb k (by simp)) prev (m == 0) hg
    rw [serTopLoop]
    split
    · exact h1
    · exact ih (fun k hk => h k (by simp [hk])) (fun k hk => hM k (by simp [hk])) (fun k hk => hb k (by simp [hk])) _ _ _ h1

/-- The labels used by the blocks which the loop serializes. -/
def bodyUses (cx : Cx) (kids : List Kid) : Uses :=
  usesList cx ((kids.map (·.node)).filter fun n => !n.isFootnoteDefinition)

theorem serTopLoop_used {cx : Cx} {M : List Ref} {ns : List (List Char)} {kids : List Kid}
    (h : ∀ k ∈ kids, KidOk cx k) (hM : MayIn cx M kids) (hb : Blocks kids)
    (hd : ∀ k ∈ kids, k.node.directive = none) :
    ∀ (ls : List Ref) (prev : Option Node) (m : Nat) (st : St),
      Good cx M ls ns st → st.skipMode = .none →
      Good cx M (ls ++ (bodyUses cx kids).must) ns (serTopLoop cx prev m kids st).1 ∧
        (serTopLoop cx prev m kids st).2 = false := by
  induction kids with
  | nil =>
    intro ls prev m st hg _
    exact ⟨hg.mono (by simp [bodyUses, usesList]) (fun _ h => h), rfl⟩
  | cons k ks ih =>
    intro ls prev m st hg hs
    rw [serTopLoop]
    have ih' := ih (fun k hk => h k (by simp [hk])) (fun k hk => hM k (by simp [hk])) (fun k hk => hb k (by simp [hk]))
      (fun k hk => hd k (by simp [hk]))
    by_cases hf : k.node.isFootnoteDefinition
    · have e : serTopChild cx prev (m == 0) k st = (st, false) := by
        rw [serTopChild]
        split
        · rfl
        · first | rfl | rw [if_pos hf]
      have el : bodyUses cx (k :: ks) = bodyUses cx ks := by
        rw [bodyUses, List.map_cons, List.filter_cons, if_neg (by simp [hf])]; rfl
      rw [e, el]
      exact ih' ls _ _ st hg hs
    · have hf' : k.node.isFootnoteDefinition = false := by simpa using hf
      obtain ⟨h1, h2, h3⟩ := serTopChild_used (h k (by simp)) (hM k (by simp)) (hb k (by simp)) prev (m == 0) hg hs
        (hd k (by simp)) hf'
      have el : bodyUses cx (k :: ks) = uses cx k.node ++ bodyUses cx ks := by
        rw [bodyUses, List.map_cons, List.filter_cons, if_pos (by simp [hf'])]; rfl
      rw [h3, el, Uses.append_must, ← List.append_assoc]
      exact ih' _ _ _ _ h1 h2

/-! ### Footnote definitions -/

/-- The names of footnote definitions. -/
def fnNames (nodes : List Node) : List (List Char) :=
  nodes.filterMap fun n => match n.value with
    | .footnoteDefinition name => some name
    | _ => none

/-- After a footnote definition its name is pending. -/
def KidFn (k : Kid) : Prop := ∀ name, k.node.value = .footnoteDefinition name →
  ∀ st, name ∈ (k.act st).footnotes.pending.map (·.1)

theorem serKids_fn (cx : Cx) (cs : List Node) : ∀ k ∈ serKids cx cs, KidFn k := by
  induction cs with
  | nil => simp [serKids]
  | cons n ns ih =>
    intro k hk
    rw [serKids] at hk
    rcases List.mem_cons.mp hk with rfl | hk
    · intro name hn st
      obtain ⟨v, p, cs⟩ := n
      rw [Node.value] at hn
      subst hn
      simp only [ser, dispatch, serFootnoteDefinition]
      exact (mapInsert_key_mem _ _ _ _).mpr (.inl rfl)
    · exact ih k hk

theorem Good.name {cx : Cx} {M ls : List Ref} {ns : List (List Char)} {st : St} {n : List Char}
    (h : Good cx M ls ns st) (hn : n ∈ st.footnotes.pending.map (·.1)) : Good cx M ls (ns ++ [n]) st := by
  obtain ⟨A, F, h, h0, h1, h2⟩ := h
  refine ⟨A, F, h, h0, h1, fun m hm => ?_⟩
  rcases List.mem_append.mp hm with hm | hm
  · exact h2 m hm
  · rw [List.mem_singleton] at hm
    subst hm
    obtain ⟨e, he, rfl⟩ := List.mem_map.mp hn
    exact ⟨e.2, (h.fL e he).2, (h.fL e he).1.symm⟩

theorem runKids_good {cx : Cx} {M : List Ref} {kids : List Kid} (h : ∀ k ∈ kids, KidOk cx k) (hM : MayIn cx M kids) (hb : Blocks kids)
    (hn : ∀ k ∈ kids, KidFn k) : ∀ (ls : List Ref) (ns : List (List Char)) (st : St), Good cx M ls ns st →
      Good cx M (ls ++ (kidUses cx kids).must) (ns ++ fnNames (kids.map (·.node))) (runKids kids st) := by
  induction kids with
  | nil =>
    intro ls ns st hg
    exact hg.mono (by simp [kidUses, usesList]) (by simp [fnNames])
  | cons k ks ih =>
    intro ls ns st hg
    have h1 := hg.ok ((h k (by simp)).act (hb k (by simp)) st) (hM k (by simp))
    have ih' := ih (fun k hk => h k (by simp [hk])) (fun k hk => hM k (by simp [hk])) (fun k hk => hb k (by simp [hk]))
      (fun k hk => hn k (by simp [hk]))
    rw [kidUses_cons, Uses.append_must, ← List.append_assoc]
    by_cases hf : ∃ name, k.node.value = .footnoteDefinition name
    · obtain ⟨name, hf⟩ := hf
      have e : fnNames ((k :: ks).map (·.node)) = name :: fnNames (ks.map (·.node)) := by
        rw [fnNames, List.map_cons, List.filterMap_cons, hf]; rfl
      have e2 : ns ++ fnNames ((k :: ks).map (·.node)) = (ns ++ [name]) ++ fnNames (ks.map (·.node)) := by
        rw [e]; simp
      rw [e2]
      exact ih' _ _ _ (h1.name (hn k (by simp) name hf st))
    · have e : fnNames ((k :: ks).map (·.node)) = fnNames (ks.map (·.node)) := by
        rw [fnNames, List.map_cons, List.filterMap_cons]
        split
        · rfl
        · rename_i x hx
          exfalso
          split at hx
          · rename_i n hn'
            exact hf ⟨n, hn'⟩
          · simp at hx
      rw [e]
      exact ih' _ _ _ h1

/-! ### The document -/

theorem recordLines_view (ls : List (List Char × Nat)) : ∀ st : St,
    refView (recordLines ls st) = refView st ∧ (recordLines ls st).skipMode = st.skipMode ∧
    (recordLines ls st).warnings = st.warnings ∧ ctx (recordLines ls st) = ctx st := by
  induction ls with
  | nil => exact fun st => ⟨rfl, rfl, rfl, rfl⟩
  | cons l ls ih =>
    intro st
    obtain ⟨h1, h2, h3, h4⟩ := ih (recordReferenceLine l.1 l.2 st)
    exact ⟨h1, h2, h3, h4⟩

theorem filter_mem {kids : List Kid} {p : Kid → Bool} {P : Kid → Prop} (h : ∀ k ∈ kids, P k) :
    ∀ k ∈ kids.filter p, P k := fun k hk => h k (List.mem_filter.mp hk).1

theorem outputTrailing_grows (ns : List Node) (st : St) : Grows st (outputTrailing ns st) := by
  rw [outputTrailing]
  split
  · exact Grows.refl st
  · rw [ensureBlankLine_eq]
    exact (grows_push st _).trans (grows_push _ _)

/-- A document starts with its undefined references. -/
theorem serDocument_grows_from {cx : Cx} {kids : List Kid} (h : ∀ k ∈ kids, KidOk cx k)
    (hb : Blocks kids) (st : St) :
    Grows { st with warnings := st.warnings ++ undefinedWarnings cx (kids.map (·.node)) }
      (serDocument cx kids st) := by
  rw [serDocument]
  generalize hs : ({ st with warnings := st.warnings ++ undefinedWarnings cx (kids.map (·.node)) } : St) = s1
  have g2 : Grows s1 (recordLines (footnoteRefLinesList (kids.map (·.node))) s1) := by
    obtain ⟨h1, _, h3, h4⟩ := recordLines_view (footnoteRefLinesList (kids.map (·.node))) s1
    exact ⟨by rw [show (recordLines _ s1).output = s1.output from congrArg RefView.output h1];
              exact List.prefix_rfl, by rw [h3]; exact List.prefix_rfl, h4⟩
  have g3 := fun st => (runKids_ok (kids := kids.filter fun k => k.node.isFootnoteDefinition)
    (filter_mem h) (fun k hk => hb k (List.mem_filter.mp hk).1) st).grows
  have g4 := serTopLoop_grows h hb
  have g5 := g2.trans ((g3 _).trans (g4 none (trailingStart (kids.map (·.node))) _))
  split
  · exact g5
  · exact g5.trans ((grows_flushAll _ _ _).trans (outputTrailing_grows _ _))

theorem serDocument_grows {cx : Cx} {kids : List Kid} (h : ∀ k ∈ kids, KidOk cx k)
    (hb : Blocks kids) (st : St) : Grows st (serDocument cx kids st) :=
  have g1 : Grows st { st with warnings := st.warnings ++ undefinedWarnings cx (kids.map (·.node)) } :=
    ⟨List.prefix_rfl, List.prefix_append _ _, rfl⟩
  g1.trans (serDocument_grows_from h hb st)

theorem outputTrailing_good {cx : Cx} {M ls : List Ref} {ns : List (List Char)} (nodes : List Node) {st : St}
    (h : Good cx M ls ns st) : Good cx M ls ns (outputTrailing nodes st) := by
  rw [outputTrailing]
  split
  · exact h
  · rw [ensureBlankLine_eq]
    exact (h.push _).push _

theorem serDocument_start {cx : Cx} {M : List Ref} {kids : List Kid} (h : ∀ k ∈ kids, KidOk cx k)
    (hM : MayIn cx M kids) (hb : Blocks kids) (hn : ∀ k ∈ kids, KidFn k) {st : St} (hg : Good cx M [] [] st) (w : List Warning) :
    let st := serFootnoteDefinitions kids (recordLines (footnoteRefLinesList (kids.map (·.node)))
      { st with warnings := w })
    Good cx M (kidUses cx (kids.filter fun k => k.node.isFootnoteDefinition)).must
      (fnNames (kids.map (·.node))) st := by
  intro st'
  have h1 : Good cx M [] [] (recordLines (footnoteRefLinesList (kids.map (·.node))) { st with warnings := w }) :=
    hg.view (recordLines_view _ _).1
  have := runKids_good (kids := kids.filter fun k => k.node.isFootnoteDefinition)
    (filter_mem h) (filter_mem hM) (fun k hk => hb k (List.mem_filter.mp hk).1) (filter_mem hn) [] [] _ h1
  refine this.mono (fun l hl => by simpa using hl) (fun n hn => ?_)
  rw [List.nil_append]
  rw [fnNames, List.mem_filterMap] at hn ⊢
  obtain ⟨x, hx, he⟩ := hn
  obtain ⟨k, hk, rfl⟩ := List.mem_map.mp hx
  refine ⟨k.node, List.mem_map.mpr ⟨k, List.mem_filter.mpr ⟨hk, ?_⟩, rfl⟩, he⟩
  rw [Node.isFootnoteDefinition]
  split at he
  · rename_i h; rw [h]
  · simp at he

theorem serDocument_good {cx : Cx} {M : List Ref} {kids : List Kid} (h : ∀ k ∈ kids, KidOk cx k)
    (hM : MayIn cx M kids) (hb : Blocks kids) (hn : ∀ k ∈ kids, KidFn k) {st : St} (hg : Good cx M [] [] st) :
    Good cx M [] [] (serDocument cx kids st) := by
  have h1 := (serDocument_start h hM hb hn hg (st.warnings ++ undefinedWarnings cx (kids.map (·.node)))).mono
    (ls' := []) (ns' := []) (by simp) (by simp)
  have h2 := serTopLoop_good h hM hb none (trailingStart (kids.map (·.node))) _ h1
  rw [serDocument]
  split
  · exact h2
  · exact outputTrailing_good _ (h2.flushAll none)

/-- At the end of a document without directives. -/
theorem serDocument_used {cx : Cx} {M : List Ref} {kids : List Kid} (h : ∀ k ∈ kids, KidOk cx k)
    (hM : MayIn cx M kids) (hb : Blocks kids) (hn : ∀ k ∈ kids, KidFn k) (hd : ∀ k ∈ kids, k.node.directive = none)
    {st : St} (hg : Good cx M [] [] st) (hs : st.skipMode = .none) :
    Good cx M (kidUses cx (kids.filter fun k => k.node.isFootnoteDefinition) ++ bodyUses cx kids).must
      (fnNames (kids.map (·.node))) (serDocument cx kids st) ∧
    (serDocument cx kids st).pendingReferences = [] ∧
    (serDocument cx kids st).footnotes.pendingReferences = [] ∧
    (serDocument cx kids st).footnotes.pending = [] := by
  have h1 := serDocument_start h hM hb hn hg (st.warnings ++ undefinedWarnings cx (kids.map (·.node)))
  have hsk := (runKids_ok (kids := kids.filter fun k => k.node.isFootnoteDefinition)
    (filter_mem h) (fun k hk => hb k (List.mem_filter.mp hk).1)
    (recordLines (footnoteRefLinesList (kids.map (·.node)))
      { st with warnings := st.warnings ++ undefinedWarnings cx (kids.map (·.node)) })).core.skip
  have hsr := (recordLines_view (footnoteRefLinesList (kids.map (·.node)))
    { st with warnings := st.warnings ++ undefinedWarnings cx (kids.map (·.node)) }).2.1
  obtain ⟨h2, h3⟩ := serTopLoop_used h hM hb hd _ none (trailingStart (kids.map (·.node))) _ h1
    ((hsk.trans hsr).trans hs)
  rw [serDocument]
  rw [h3]
  refine ⟨outputTrailing_good _ (h2.flushAll none), ?_⟩
  have hp := flushAll_none_pending cx (serTopLoop cx none (trailingStart (kids.map (·.node))) kids
    (serFootnoteDefinitions kids (recordLines (footnoteRefLinesList (kids.map (·.node)))
      { st with warnings := st.warnings ++ undefinedWarnings cx (kids.map (·.node)) }))).1
  generalize flushAll cx none _ = s at hp ⊢
  rw [if_neg (by simp), outputTrailing]
  split
  · exact hp
  · rw [ensureBlankLine_eq]
    exact hp

end Hongdown
