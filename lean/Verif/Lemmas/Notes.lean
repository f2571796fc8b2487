import Verif.Lemmas.Section
import Verif.Spec.Notes

set_option linter.unusedSimpArgs false

/-!
# What is stored for a footnote, exactly
-/

namespace Hongdown
open Model Spec

/-- The blocks one after the other, as `footnoteBlocks` joins them. -/
def joinedBlocks : Bool → List (List Char) → List Char
  | _, [] => []
  | first, b :: bs => (if !first && b ≠ [] then ['\n', '\n'] else []) ++ b ++ joinedBlocks false bs

theorem footnoteBlocks_text {cx : Cx} : ∀ (fs : List Node) (first : Bool) (acc : List Char) (st : St),
    wellPlacedDoc fs = true → view st = view {} →
    (footnoteBlocks first (serKids cx fs) acc st).1 = trimEnd (acc ++ joinedBlocks first (noteBlocks cx fs))
  | [], first, acc, st, _, _ => by simp [serKids, footnoteBlocks, noteBlocks, joinedBlocks]
  | n :: ns, first, acc, st, hw, hv => by
    simp only [wellPlacedDoc, List.all_cons, wellPlacedList, Bool.and_eq_true, Bool.not_eq_true'] at hw
    obtain ⟨⟨hi, hi'⟩, hw, hw'⟩ := hw
    have hv' : view { st with output := [] } = view {} := hv
    obtain ⟨h1, t, h2, h3⟩ := ser_par cx n (nextIsBracket ns) hw { st with output := [] } {} hv'
    have ht : (ser cx n (nextIsBracket ns) { st with output := [] }).output = formatted cx [] n (nextIsBracket ns) := by
      rw [h2, formatted]
      exact h3.symm
    have h4 : view (ser cx n (nextIsBracket ns) {}) = view {} :=
      ((ser_ok cx n (nextIsBracket ns) hw).act hi {}).view rfl
    have ih := footnoteBlocks_text (cx := cx) ns false
      (acc ++ (if !first && trimEnd (formatted cx [] n (nextIsBracket ns)) ≠ [] then ['\n', '\n'] else []) ++
        trimEnd (formatted cx [] n (nextIsBracket ns)))
      { ser cx n (nextIsBracket ns) { st with output := [] } with output := st.output }
      (by simp [wellPlacedDoc, hi', hw']) (h1.trans h4)
    rw [serKids, footnoteBlocks]
    simp only [ht]
    rw [ih]
    simp only [noteBlocks, joinedBlocks, List.append_assoc]

theorem joinedBlocks_false : ∀ (bs : List (List Char)), [] ∉ bs → bs ≠ [] →
    joinedBlocks false bs = ['\n', '\n'] ++ joinWith ['\n', '\n'] bs
  | [], _, h => absurd rfl h
  | [b], hn, _ => by
    have hb : b ≠ [] := fun h => hn (by simp [h])
    simp [joinedBlocks, joinWith, hb]
  | b :: c :: bs, hn, _ => by
    have hb : b ≠ [] := fun h => hn (by simp [h])
    have ih := joinedBlocks_false (c :: bs) (fun h => hn (List.mem_cons_of_mem _ h)) (by simp)
    rw [joinedBlocks, ih]
    simp [joinWith, hb]

theorem noteBlocks_trimmed (cx : Cx) : ∀ (fs : List Node), ∀ b ∈ noteBlocks cx fs, trimEnd b = b
  | [], b, hb => by simp [noteBlocks] at hb
  | n :: ns, b, hb => by
    rw [noteBlocks] at hb
    rcases List.mem_cons.mp hb with rfl | hb
    · exact trimEnd_idem _
    · exact noteBlocks_trimmed cx ns b hb

theorem trimEnd_joinWith (sep : List Char) : ∀ (bs : List (List Char)), (∀ b ∈ bs, trimEnd b = b) → [] ∉ bs →
    trimEnd (joinWith sep bs) = joinWith sep bs
  | [], _, _ => rfl
  | [b], h, _ => h b (by simp)
  | b :: c :: bs, h, hn => by
    have ih := trimEnd_joinWith sep (c :: bs) (fun x hx => h x (List.mem_cons_of_mem _ hx))
      (fun hm => hn (List.mem_cons_of_mem _ hm))
    have hc : c ≠ [] := fun e => hn (by simp [e])
    have hne : joinWith sep (c :: bs) ≠ [] := by
      cases bs with
      | nil => exact hc
      | cons d ds => rw [joinWith]; simp [hc]
    rw [joinWith, trimEnd_append_right (by rw [ih]; exact hne), ih]

theorem joinedBlocks_true {cx : Cx} {fs : List Node} (hn : [] ∉ noteBlocks cx fs) :
    trimEnd (joinedBlocks true (noteBlocks cx fs)) = joinWith ['\n', '\n'] (noteBlocks cx fs) := by
  have ht := trimEnd_joinWith ['\n', '\n'] _ (noteBlocks_trimmed cx fs) hn
  have : joinedBlocks true (noteBlocks cx fs) = joinWith ['\n', '\n'] (noteBlocks cx fs) := by
    generalize noteBlocks cx fs = bs at hn
    match bs, hn with
    | [], _ => rfl
    | [b], _ => simp [joinedBlocks, joinWith]
    | b :: c :: bs, hn =>
      rw [joinedBlocks, joinedBlocks_false (c :: bs) (fun h => hn (List.mem_cons_of_mem _ h)) (by simp)]
      simp [joinWith]
  rw [this, ht]

/-- What is stored as the content of a footnote. -/
def noteContent (cx : Cx) (fs : List Node) : List Char :=
  if hasBlocks fs then trimEnd (joinedBlocks true (noteBlocks cx fs)) else trim (collectInlines cx fs).1

theorem serFootnoteDefinition_exact {cx : Cx} {fs : List Node} (hw : wellPlacedDoc fs = true)
    (hn : noteFreeList fs = true) (name : List Char) (st : St) (hv : view st = view {}) :
    (serFootnoteDefinition cx name (serKids cx fs) st).footnotes.pending =
        mapInsert name ⟨name, noteContent cx fs, (st.footnotes.referenceLines.lookup name).getD 0, hasBlocks fs⟩
          st.footnotes.pending ∧
      (serFootnoteDefinition cx name (serKids cx fs) st).footnotes.emitted = st.footnotes.emitted := by
  have hwl : wellPlacedList fs = true ∧ ∀ c ∈ fs, isItemLike c = false := by
    rw [wellPlacedDoc, Bool.and_eq_true] at hw
    exact ⟨hw.2, fun c hc => by simpa using List.all_eq_true.mp hw.1 _ hc⟩
  have hnodes := serKids_nodes cx fs
  have hb : Blocks (serKids cx fs) := by
    intro k hk
    have hm : k.node ∈ (serKids cx fs).map (·.node) := List.mem_map.mpr ⟨k, hk, rfl⟩
    rw [hnodes] at hm
    exact hwl.2 _ hm
  rw [serFootnoteDefinition, hnodes]
  generalize hs : ({ st with footnotes := { st.footnotes with
    collecting := true
    currentReferenceLine := (st.footnotes.referenceLines.lookup name).getD 0 } } : St) = s1
  have e1 : s1.footnotes.pending = st.footnotes.pending := by rw [← hs]
  have e2 : s1.footnotes.emitted = st.footnotes.emitted := by rw [← hs]
  have e3 : view s1 = view {} := by rw [← hs]; exact hv
  have hu : (kidUses cx (serKids cx fs)).fns = [] := by
    rw [kidUses, hnodes]; exact usesList_noteFree cx _ hn
  simp only []
  by_cases hbl : hasBlocks fs = true
  · simp only [hbl, if_true]
    have ho := footnoteBlocks_ok (serKids_ok cx fs hwl.1) hb true [] s1
    have hc := footnoteBlocks_text (cx := cx) fs true [] s1 hw e3
    rw [List.nil_append] at hc
    refine ⟨?_, (ho.core.fnEmitted).trans e2⟩
    have := ho.core.fnPending.none (fun v hv => by rw [hu] at hv; simp at hv)
    rw [show (footnoteBlocks true (serKids cx fs) [] s1).2.footnotes.pending = s1.footnotes.pending from this, e1, hc,
      noteContent, if_pos hbl]
  · rw [Bool.not_eq_true] at hbl
    simp only [hbl, Bool.false_eq_true, if_false]
    have ho := okAt_addReferences (collectInlines cx fs).2 s1
    refine ⟨?_, (ho.core.fnEmitted).trans e2⟩
    have := ho.core.fnPending.none (fun v hv => by simp at hv)
    rw [show (addReferences s1 (collectInlines cx fs).2).footnotes.pending = s1.footnotes.pending from this, e1,
      noteContent, if_neg (by rw [hbl]; simp)]

/-- After the definitions a footnote is pending with exactly this content. -/
theorem defs_exact {cx : Cx} {name : List Char} {q : Pos} {fs : List Node} :
    ∀ (cs : List Node), wellPlacedList cs = true → (∀ c ∈ cs, isItemLike c = false) →
      (∀ c ∈ cs, noteFreeList c.children = true) → (fnNames cs).Nodup → .mk (.footnoteDefinition name) q fs ∈ cs →
      ∀ st, Unseen name st → view st = view {} →
        PendingNote name (fun f => f.content = noteContent cx fs ∧ f.hasBlocks = hasBlocks fs ∧
            ∀ l, st.footnotes.referenceLines.lookup name = some l → f.referenceLine = l)
          (runKids ((serKids cx cs).filter fun k => k.node.isFootnoteDefinition) st)
  | [], _, _, _, _, hm, _, _, _ => by simp at hm
  | c :: cs, hw, hb, hn, hnd, hm, st, hu, hview => by
    rw [wellPlacedList, Bool.and_eq_true] at hw
    have hkids := serKids_ok cx cs hw.2
    have hnodes := serKids_nodes cx cs
    have hcn := hn c (by simp)
    obtain ⟨v, q', gs⟩ := c
    have hkc : KidOk cx ⟨.mk v q' gs, ser cx (.mk v q' gs) (nextIsBracket cs)⟩ := by
      have := serKids_ok cx (.mk v q' gs :: cs) (by rw [wellPlacedList, Bool.and_eq_true]; exact hw)
      exact this _ (by rw [serKids]; simp)
    rw [serKids, List.filter_cons]
    by_cases hv : (Node.mk v q' gs).isFootnoteDefinition = true
    · rw [if_pos hv, runKids]
      cases v <;> simp [Node.isFootnoteDefinition, Node.value] at hv
      rename_i name'
      have hl : fnNames (.mk (.footnoteDefinition name') q' gs :: cs) = name' :: fnNames cs := rfl
      rw [hl, List.nodup_cons] at hnd
      have hu1 := uses_def_fns cx name' q' gs hcn
      by_cases he : Node.mk (.footnoteDefinition name) q fs = .mk (.footnoteDefinition name') q' gs
      · cases he
        have hok := runKids_ok (kids := (serKids cx cs).filter fun k => k.node.isFootnoteDefinition) (filter_mem hkids)
          (by
            intro k hk
            have hm : k.node ∈ (serKids cx cs).map (·.node) := List.mem_map.mpr ⟨k, (List.mem_filter.mp hk).1, rfl⟩
            rw [hnodes] at hm
            exact hb _ (by simp [hm]))
          (ser cx (.mk (.footnoteDefinition name) q fs) (nextIsBracket cs) st)
        refine PendingNote.ok ?_ hok (by rw [kidUses_defs cx cs fun c hc => hn c (by simp [hc])]; exact hnd.1)
        have hwf : wellPlacedDoc fs = true := by
          have := hw.1
          simp only [wellPlaced, Bool.and_eq_true, List.all_eq_true] at this
          have h2 := this.1.2
          simp only [isListValue, Bool.false_or, List.all_eq_true] at h2
          rw [wellPlacedDoc, Bool.and_eq_true, List.all_eq_true]
          exact ⟨h2, this.2⟩
        obtain ⟨hf3, hf4⟩ := serFootnoteDefinition_exact (cx := cx) hwf hcn name st hview
        rw [ser, dispatch]
        obtain ⟨h1, h2, h3⟩ := hu
        refine ⟨by rw [hf4]; exact h1, ?_, ?_, ?_⟩
        · rw [hf3]; exact (mapInsert_key_mem _ _ _ _).mpr (.inl rfl)
        · intro e he
          rw [hf3] at he
          rcases mapInsert_mem he with rfl | he
          · rfl
          · exact h2 e he
        · intro e he hm
          rw [hf3] at he
          rcases mapInsert_mem he with rfl | he
          · exact ⟨rfl, rfl, fun l hl => by rw [hl]; rfl⟩
          · exact absurd hm (h3 e he)
      · have hm' : .mk (.footnoteDefinition name) q fs ∈ cs := by
          rcases List.mem_cons.mp hm with h | h
          · exact absurd h he
          · exact h
        have hact := hkc.act (hb _ (by simp)) st
        have hdd : st.descriptionDetailsFirstList = false := by
          show (view st).descriptionDetailsFirstList = false
          rw [hview]; rfl
        refine (defs_exact cs hw.2 (fun c hc => hb c (by simp [hc])) (fun c hc => hn c (by simp [hc])) hnd.2 hm' _ ?_
          ((hact.view hdd).trans hview)).mono
          fun f hf => ⟨hf.1, hf.2.1, fun l hl => hf.2.2 l (hact.core.refLines name l hl)⟩
        refine hu.ok hact ?_
        rw [hu1, List.mem_singleton]
        rintro rfl
        refine hnd.1 ?_
        rw [fnNames, List.mem_filterMap]
        exact ⟨_, hm', rfl⟩
    · rw [if_neg hv]
      have hl : fnNames (.mk v q' gs :: cs) = fnNames cs := by
        rw [fnNames]
        cases v <;> simp [Node.isFootnoteDefinition, Node.value] at hv <;> rfl
      rw [hl] at hnd
      refine defs_exact (q := q) cs hw.2 (fun c hc => hb c (by simp [hc])) (fun c hc => hn c (by simp [hc])) hnd ?_ st hu hview
      rcases List.mem_cons.mp hm with h | h
      · cases h; exact absurd rfl hv
      · exact h

theorem serTopLoop_runs (cx : Cx) : ∀ (kids : List Kid) (prev : Option Node) (m : Nat) (st : St),
    (∀ k ∈ kids, k.node.directive ≠ some .disableFile) → (serTopLoop cx prev m kids st).2 = false
  | [], _, _, _, _ => rfl
  | k :: ks, prev, m, st, h => by
    have h1 : (serTopChild cx prev (m == 0) k st).2 = false := by
      have := h k (by simp)
      unfold serTopChild
      simp only []
      split
      · rfl
      · split
        · rfl
        · split
          · rename_i d hd
            cases d <;> first | rfl | exact absurd hd this
          · rfl
    rw [serTopLoop]
    simp only [h1, Bool.false_eq_true, if_false]
    exact serTopLoop_runs cx ks _ _ _ fun k hk => h k (by simp [hk])

theorem formatDoc_exact {cx : Cx} {p : Pos} {cs : List Node} (hw : wellPlacedDoc cs = true)
    (hd : ∀ n ∈ cs, n.directive ≠ some .disableFile)
    (hn : ∀ c ∈ cs, noteFreeList c.children = true) (hnd : (fnNames cs).Nodup)
    {name : List Char} {q : Pos} {fs : List Node} (hf : .mk (.footnoteDefinition name) q fs ∈ cs) :
    ∃ f : Footnote, f.name = name ∧ f.content = noteContent cx fs ∧ f.hasBlocks = hasBlocks fs ∧
      footnoteText cx f <:+: (formatDoc cx (.mk .document p cs)).output := by
  have hwl : wellPlacedList cs = true := by
    rw [wellPlacedDoc, Bool.and_eq_true] at hw
    exact hw.2
  have hbl : ∀ c ∈ cs, isItemLike c = false := by
    intro c hc
    rw [wellPlacedDoc, Bool.and_eq_true] at hw
    simpa using List.all_eq_true.mp hw.1 _ hc
  have h := serKids_ok cx cs hwl
  have hnodes := serKids_nodes cx cs
  have hmem : ∀ k ∈ serKids cx cs, k.node ∈ cs := by
    intro k hk
    rw [← hnodes]
    exact List.mem_map.mpr ⟨k, hk, rfl⟩
  have hb : Blocks (serKids cx cs) := fun k hk => hbl _ (hmem k hk)
  rw [formatDoc, ser, dispatch, serDocument, hnodes]
  generalize hs1 : ({ ({} : St) with warnings := ({} : St).warnings ++ undefinedWarnings cx cs } : St) = s1
  have hv := recordLines_view (footnoteRefLinesList cs) s1
  have hs : Unseen name (recordLines (footnoteRefLinesList cs) s1) := by
    have := hv.1
    simp only [refView, RefView.mk.injEq] at this
    obtain ⟨_, _, _, h4, h5, _⟩ := this
    rw [Unseen, h4, h5, ← hs1]
    simp
  have hview : view (recordLines (footnoteRefLinesList cs) s1) = view {} := by
    have : ∀ (ls : List (List Char × Nat)) (st : St), view (recordLines ls st) = view st := by
      intro ls
      induction ls with
      | nil => exact fun _ => rfl
      | cons l ls ih => 
        intro st
        refine (ih (recordReferenceLine l.1 l.2 st)).trans ?_
        rfl
    rw [this, ← hs1]; rfl
  have hdef : Note cx name (fun f => f.content = noteContent cx fs ∧ f.hasBlocks = hasBlocks fs)
      (runKids ((serKids cx cs).filter fun k => k.node.isFootnoteDefinition) (recordLines (footnoteRefLinesList cs) s1)) :=
    .inr ((defs_exact cs hwl hbl hn hnd hf _ hs hview).mono fun _ h => ⟨h.1, h.2.1⟩)
  have h2 := serTopLoop_runs cx (serKids cx cs) none (trailingStart cs)
    (serFootnoteDefinitions (serKids cx cs) (recordLines (footnoteRefLinesList cs) s1)) fun k hk => hd _ (hmem k hk)
  rw [if_neg (by rw [h2]; simp)]
  have h3 : Note cx name (fun f => f.content = noteContent cx fs ∧ f.hasBlocks = hasBlocks fs)
      (serTopLoop cx none (trailingStart cs) (serKids cx cs)
      (serFootnoteDefinitions (serKids cx cs) (recordLines (footnoteRefLinesList cs) s1))).1 := by
    refine serTopLoop_note h ?_ hb _ _ _ hdef
    intro k hk hkd
    rw [uses_noteFree cx k.node]
    · simp
    · have := hn _ (hmem k hk)
      obtain ⟨⟨v, q', gs⟩, act⟩ := k
      rw [noteFree, Bool.and_eq_true]
      refine ⟨?_, this⟩
      cases v <;> simp [Node.isFootnoteDefinition, Node.value] at hkd <;> rfl
  have h4 := h3.flushAll none
  have hpend := (flushAll_none_pending cx (serTopLoop cx none (trailingStart cs) (serKids cx cs)
      (serFootnoteDefinitions (serKids cx cs) (recordLines (footnoteRefLinesList cs) s1))).1).2.2
  rcases h4 with ⟨f, h5, h6, h7⟩ | ⟨_, h5, _⟩
  · refine ⟨f, h5, h6.1, h6.2, h7.trans ?_⟩
    rw [outputTrailing]
    split
    · exact List.infix_refl _
    · rw [ensureBlankLine_eq]
      simp only [St.push, List.append_assoc]
      exact (List.prefix_append _ _).isInfix
  · rw [hpend] at h5
    simp at h5

theorem hasBlocks_of {fs : List Node} (h : ByBlocks fs) : hasBlocks fs = true := by
  rw [hasBlocks, Bool.or_eq_true]
  rcases h with ⟨n, hn, h⟩ | ⟨A, m, B, n, C, rfl, h1, h2⟩
  · left
    rw [List.any_eq_true]
    refine ⟨n, hn, ?_⟩
    revert h
    cases n.value <;> simp
  · right
    simp [List.filter_append, List.filter_cons, h1, h2]
    omega

theorem not_hasBlocks_of {fs : List Node} (h : ¬ ByBlocks fs) : hasBlocks fs = false := by
  rw [Bool.eq_false_iff]
  intro hb
  apply h
  rw [hasBlocks, Bool.or_eq_true] at hb
  rcases hb with hb | hb
  · left
    rw [List.any_eq_true] at hb
    obtain ⟨n, hn, hb⟩ := hb
    refine ⟨n, hn, ?_⟩
    revert hb
    cases n.value <;> simp
  · right
    simp only [decide_eq_true_eq] at hb
    obtain ⟨m, ms, hm⟩ : ∃ m ms, (fs.filter fun n => n.value = .paragraph) = m :: ms := by
      cases hf : fs.filter fun n => n.value = .paragraph with
      | nil => rw [hf] at hb; simp at hb
      | cons m ms => exact ⟨m, ms, rfl⟩
    rw [hm] at hb
    obtain ⟨n, ns, rfl⟩ : ∃ n ns, ms = n :: ns := by
      cases ms with
      | nil => simp at hb
      | cons n ns => exact ⟨n, ns, rfl⟩
    rw [List.filter_eq_cons_iff] at hm
    obtain ⟨A, l, rfl, _, h1, h2⟩ := hm
    rw [List.filter_eq_cons_iff] at h2
    obtain ⟨B, C, rfl, _, h3, _⟩ := h2
    exact ⟨A, m, B, n, C, by simp, by simpa using h1, by simpa using h3⟩

theorem footnoteText_blocks (cx : Cx) (f : Footnote) (h : f.hasBlocks = true) :
    footnoteText cx f = unlines (hung (['[', '^'] ++ f.name ++ [']', ':', ' ']) (lines f.content)) := by
  have hp : ['[', '^'] ++ f.name ++ [']', ':', ' '] = footnotePrefix f.name := rfl
  rw [hp]
  simp only [footnoteText, h, if_true, footnoteBlockLines, unlines]
  cases lines f.content with
  | nil => rfl
  | cons l ls =>
    simp only [List.mapIdx_cons, if_true, List.map_cons, List.map_map, hung]
    congr 2
    apply List.ext_getElem
    · simp
    · intro i h1 h2
      simp only [List.getElem_mapIdx, List.getElem_map, Function.comp]
      simp [spaces]

end Hongdown
