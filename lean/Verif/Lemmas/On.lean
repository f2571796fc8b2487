import Verif.Lemmas.Off
import Verif.Props.Frame

/-!
# Blocks that are formatted in documents with directives
-/

namespace Hongdown
open Model Spec

section
variable {cx : Cx} {k : Kid}

/-- The mode after a child of the loop. -/
theorem serTopChild_mode (h : KidOk cx k) (hb : isItemLike k.node = false) (prev : Option Node) {before : List Node} {st : St}
    (hm : st.skipMode = modeAfter before) (hd : k.node.directive ≠ some .disableFile) :
    (serTopChild cx prev false k st).1.skipMode = modeAfter (before ++ [k.node]) := by
  have hfs := (flushAll_rest cx (some k.node.pos.startLine) st).1
  rw [modeAfter_snoc, modeStep, ← hm, serTopChild]
  simp only [Bool.false_and, Bool.false_eq_true, if_false]
  by_cases hf : k.node.isFootnoteDefinition = true
  · rw [if_pos hf, (footnote_facts hf).1]
    simp only [if_pos hf]
  · rw [if_neg hf]
    cases hx : k.node.directive with
    | some d =>
      cases d with
      | disableFile => exact absurd hx hd
      | _ => rfl
    | none =>
      simp only [if_neg hf]
      have key : ∀ s : St, s.skipMode = st.skipMode → (serTopBlock cx k (s.push (blockGap prev k.node))).skipMode =
          if st.skipMode = .nextBlock then .none
          else if st.skipMode = .untilSection ∧ startsSection k.node = true then .none else st.skipMode := by
        intro s hs
        have ha : ∀ s : St, (k.act s).skipMode = s.skipMode := fun s => (h.act hb s).core.skip
        rw [← hs]
        show _ = if (s.push (blockGap prev k.node)).skipMode = .nextBlock then .none
          else if (s.push (blockGap prev k.node)).skipMode = .untilSection ∧ startsSection k.node = true then .none
          else (s.push (blockGap prev k.node)).skipMode
        generalize s.push (blockGap prev k.node) = s'
        rw [serTopBlock]
        by_cases h0 : s'.skipMode = .none
        · rw [if_pos h0, ha, h0]; rfl
        · rw [if_neg h0]
          by_cases h1 : s'.skipMode = .untilSection ∧ startsSection k.node = true
          · rw [if_pos (by exact h1), ha, if_neg (by rw [h1.1]; simp), if_pos h1]
          · rw [if_neg (by exact h1), if_neg h1]
            by_cases h2 : s'.skipMode = .nextBlock
            · rw [if_pos h2, if_pos h2]
              cases extractSource cx k.node.pos with
              | some source => rfl
              | none => exact ha _
            · rw [if_neg h2, if_neg h2]
              cases extractSource cx k.node.pos with
              | some source => rfl
              | none => exact ha _
      split
      · exact key _ hfs
      · exact key _ rfl

/-- A block that is not kept as it is: it is serialized. -/
theorem serTopChild_on {M ls : List Ref} {ns : List (List Char)} (h : KidOk cx k)
    (hM : ∀ r ∈ (uses cx k.node).may, r ∈ M) (hb : isItemLike k.node = false) (prev : Option Node) {before : List Node} {st : St}
    (hg : Good cx M ls ns st) (hm : st.skipMode = modeAfter before) (hon : ¬ Off before k.node)
    (hd : k.node.directive = none) (hfn : k.node.isFootnoteDefinition = false) :
    Good cx M (ls ++ (uses cx k.node).must) ns (serTopChild cx prev false k st).1 := by
  have hf := hg.flushAll (some k.node.pos.startLine)
  have hfs := (flushAll_rest cx (some k.node.pos.startLine) st).1
  have key : ∀ s : St, Good cx M ls ns s → s.skipMode = st.skipMode →
      Good cx M (ls ++ (uses cx k.node).must) ns (serTopBlock cx k (s.push (blockGap prev k.node))) := by
    intro s hg hs
    have hg := hg.push (blockGap prev k.node)
    have hs : (s.push (blockGap prev k.node)).skipMode = modeAfter before := hs.trans hm
    generalize s.push (blockGap prev k.node) = s' at hg hs
    rw [serTopBlock]
    by_cases h0 : s'.skipMode = .none
    · rw [if_pos h0]
      exact hg.ok (h.act hb s') hM
    · rw [if_neg h0]
      rw [off_iff, ← hs] at hon
      have h1 : s'.skipMode = .untilSection ∧ startsSection k.node = true := by
        cases hx : s'.skipMode with
        | none => exact absurd hx h0
        | disabled => exact absurd (.inl hx) hon
        | nextBlock => exact absurd (.inr (.inl hx)) hon
        | untilSection =>
          refine ⟨rfl, ?_⟩
          cases hy : startsSection k.node with
          | true => rfl
          | false => exact absurd (.inr (.inr ⟨hx, hy⟩)) hon
      rw [if_pos (by exact h1)]
      exact (hg.view (b := { s' with skipMode := .none }) rfl).ok (h.act hb _) hM
  rw [serTopChild]
  simp only [Bool.false_and, Bool.false_eq_true, if_false, hfn, hd]
  split
  · exact key _ hf hfs
  · exact key _ hg rfl

end

theorem serTopLoop_mode {cx : Cx} : ∀ (kids : List Kid) (before : List Node) (prev : Option Node) (m : Nat) (st : St),
    (∀ k ∈ kids, KidOk cx k) → Blocks kids → (∀ k ∈ kids, k.node.directive ≠ some .disableFile) → kids.length ≤ m →
    st.skipMode = modeAfter before →
    (serTopLoop cx prev m kids st).1.skipMode = modeAfter (before ++ kids.map (·.node))
  | [], before, _, _, st, _, _, _, _, hm => by rw [serTopLoop, List.map_nil, List.append_nil]; exact hm
  | k :: ks, before, prev, m, st, h, hb, hd, hl, hm => by
    have hm0 : (m == 0) = false := by
      rw [List.length_cons] at hl
      simp only [beq_eq_false_iff_ne]; omega
    have h1 := serTopChild_mode (h k (by simp)) (hb k (by simp)) prev hm (hd k (by simp))
    have h2 : (serTopChild cx prev (m == 0) k st).2 = false := by
      have := serTopLoop_on (cx := cx) [k] (by simpa using hd k (by simp)) prev m st
      rw [serTopLoop] at this
      by_cases hr : (serTopChild cx prev (m == 0) k st).2 = true
      · rw [if_pos hr, hr] at this; cases this
      · simpa using hr
    rw [serTopLoop, if_neg (by simp [h2]), hm0]
    have := serTopLoop_mode ks (before ++ [k.node]) (some k.node) (m - 1) (serTopChild cx prev false k st).1
      (fun k hk => h k (by simp [hk])) (fun k hk => hb k (by simp [hk])) (fun k hk => hd k (by simp [hk]))
      (by rw [List.length_cons] at hl; omega) h1
    rw [this, List.append_assoc]
    rfl

/-- After the last flush what is used is defined. -/
theorem finish_defines {cx : Cx} {M ls : List Ref} {ns : List (List Char)} {s2 : St} (hg : Good cx M ls ns s2) (T' : List Node)
    {r : Ref} (hr : r ∈ ls) :
    ∃ r' ∈ M, r'.label = r.label ∧ referenceText r' <:+: (outputTrailing T' (flushAll cx none s2)).output := by
  have g4 := outputTrailing_good T' (hg.flushAll none)
  have hp := flushAll_none_pending cx s2
  have hp' : (outputTrailing T' (flushAll cx none s2)).pendingReferences = [] ∧
      (outputTrailing T' (flushAll cx none s2)).footnotes.pendingReferences = [] := by
    generalize flushAll cx none s2 = s at hp
    rw [outputTrailing]
    split
    · exact ⟨hp.1, hp.2.1⟩
    · rw [ensureBlankLine_eq]
      exact ⟨hp.1, hp.2.1⟩
  generalize outputTrailing T' (flushAll cx none s2) = s3 at *
  obtain ⟨L, F', inv, hM, hl, _⟩ := g4
  obtain ⟨a, ha, he⟩ := hl r hr
  have hm : a.label ∈ s3.emittedReferences := by
    rcases inv.cov a ha with h | h | h
    · exact h
    · rw [hp'.1] at h; simp at h
    · rw [hp'.2] at h; simp at h
  obtain ⟨x, hx, hxl, ht⟩ := inv.emT _ hm
  exact ⟨x, hM x hx, hxl.trans he, ht⟩

/-- What a block uses that is not kept as it is, is defined. -/
theorem document_defines_on (cx : Cx) (p : Pos) (A B : List Node) (c : Node) (h : wellPlacedDoc (A ++ c :: B) = true)
    (hd : ∀ m ∈ A ++ c :: B, m.directive ≠ some .disableFile) (hc : c.directive = none) (hfn : c.isFootnoteDefinition = false)
    (hp : c.isPlainHtml = false) (hon : ¬ Off A c) (r : Ref) (hr : r ∈ (uses cx c).must) :
    ∃ r' ∈ Props.documentRefs cx (A ++ c :: B), r'.label = r.label ∧
      referenceText r' <:+: (formatDoc cx (.mk .document p (A ++ c :: B))).output := by
  obtain ⟨hk, hb⟩ := Props.blocks_of (cx := cx) h
  have hM := Props.mayIn_doc cx (A ++ c :: B)
  have hfk := serKids_fn cx (A ++ c :: B)
  have hdk : ∀ k ∈ serKids cx (A ++ c :: B), k.node.directive ≠ some .disableFile := by
    intro k hk
    have hm : k.node ∈ (serKids cx (A ++ c :: B)).map (·.node) := List.mem_map.mpr ⟨k, hk, rfl⟩
    rw [serKids_nodes] at hm
    exact hd _ hm
  have h1 := serDocument_start hk hM hb hfk (good_empty cx _) (({} : St).warnings ++ undefinedWarnings cx ((serKids cx (A ++ c :: B)).map (·.node)))
  have hsk := (runKids_ok (kids := (serKids cx (A ++ c :: B)).filter fun k => k.node.isFootnoteDefinition)
    (filter_mem hk) (fun k hk => hb k (List.mem_filter.mp hk).1)
    (recordLines (footnoteRefLinesList ((serKids cx (A ++ c :: B)).map (·.node)))
      { ({} : St) with warnings := ({} : St).warnings ++ undefinedWarnings cx ((serKids cx (A ++ c :: B)).map (·.node)) })).core.skip
  have hsr := (recordLines_view (footnoteRefLinesList ((serKids cx (A ++ c :: B)).map (·.node)))
    { ({} : St) with warnings := ({} : St).warnings ++ undefinedWarnings cx ((serKids cx (A ++ c :: B)).map (·.node)) }).2.1
  have hs0 : (serFootnoteDefinitions (serKids cx (A ++ c :: B)) (recordLines (footnoteRefLinesList ((serKids cx (A ++ c :: B)).map (·.node)))
      { ({} : St) with warnings := ({} : St).warnings ++ undefinedWarnings cx ((serKids cx (A ++ c :: B)).map (·.node)) })).skipMode = modeAfter [] :=
    hsk.trans hsr
  rw [Props.formatDoc_eq, serDocument]
  obtain ⟨main, tail, ht⟩ := trailing_exists (A ++ c :: B)
  obtain ⟨C, hmain, hBt⟩ := trailing_split ht ⟨hp, hfn⟩
  obtain ⟨F, T, _, _, hts⟩ := trailing_spec ht
  have hlen : A.length + 1 ≤ trailingStart ((serKids cx (A ++ c :: B)).map (·.node)) := by
    rw [serKids_nodes, hts, hmain]; simp only [List.length_append, List.length_cons]; omega
  have hsplit := serKids_nodes cx (A ++ c :: B)
  simp only []
  generalize trailingStart ((serKids cx (A ++ c :: B)).map (·.node)) = m at *
  generalize serFootnoteDefinitions (serKids cx (A ++ c :: B)) (recordLines (footnoteRefLinesList ((serKids cx (A ++ c :: B)).map (·.node)))
      { ({} : St) with warnings := ({} : St).warnings ++ undefinedWarnings cx ((serKids cx (A ++ c :: B)).map (·.node)) }) = s0 at *
  generalize List.drop m ((serKids cx (A ++ c :: B)).map (·.node)) = T' at *
  generalize Props.documentRefs cx (A ++ c :: B) = M at *
  generalize serKids cx (A ++ c :: B) = kids at *
  obtain ⟨K1, K2, rfl, e1, e2⟩ := List.map_eq_append_iff.mp hsplit
  obtain ⟨k, K3, rfl, rfl, e3⟩ := List.map_eq_cons_iff.mp e2
  have hl1 : K1.length = A.length := by rw [← e1, List.length_map]
  have on1 := serTopLoop_on (cx := cx) K1 (fun k hk => hdk k (by simp [hk])) none m s0
  have onA := serTopLoop_on (cx := cx) (K1 ++ k :: K3) hdk none m s0
  rw [onA, if_neg (by simp)]
  have hmode := serTopLoop_mode (cx := cx) K1 [] none m s0 (fun k hk' => hk k (by simp [hk'])) (fun k hk' => hb k (by simp [hk']))
    (fun k hk' => hdk k (by simp [hk'])) (by omega) hs0
  rw [List.nil_append, e1] at hmode
  have g1 := serTopLoop_good (cx := cx) (kids := K1) (fun k hk' => hk k (by simp [hk'])) (fun k hk' => hM k (by simp [hk']))
    (fun k hk' => hb k (by simp [hk'])) none m _ h1
  rw [serTopLoop_append cx _ _ _ _ _ on1]
  generalize (serTopLoop cx none m K1 s0).1 = s1 at *
  generalize (K1.getLast?.map (·.node)).or none = prev
  have hm0 : (m - K1.length == 0) = false := by
    simp only [beq_eq_false_iff_ne]; omega
  have hend : (serTopChild cx prev (m - K1.length == 0) k s1).2 = false := by
    have := serTopLoop_on (cx := cx) [k] (by simpa using hdk k (by simp)) prev (m - K1.length) s1
    rw [serTopLoop] at this
    by_cases hr : (serTopChild cx prev (m - K1.length == 0) k s1).2 = true
    · rw [if_pos hr, hr] at this; cases this
    · simpa using hr
  rw [serTopLoop, if_neg (by simp [hend]), hm0]
  have g2 := serTopChild_on (hk k (by simp)) (hM k (by simp)) (hb k (by simp)) prev g1 hmode hon hc hfn
  have g3 := serTopLoop_good (cx := cx) (kids := K3) (fun k hk' => hk k (by simp [hk'])) (fun k hk' => hM k (by simp [hk']))
    (fun k hk' => hb k (by simp [hk'])) (some k.node) (m - K1.length - 1) _ g2
  generalize (serTopLoop cx (some k.node) (m - K1.length - 1) K3 (serTopChild cx prev false k s1).1).1 = s2 at *
  exact finish_defines g3 T' (List.mem_append_right _ hr)

/-- A block with a paragraph or heading in it is no HTML block and no footnote. -/
theorem within_text {m c : Node} (h : Within m c) (hm : m.isPlainHtml = false ∧ m.directive = none ∧ m.isFootnoteDefinition = false) :
    c.isPlainHtml = false ∧ c.directive = none ∧ c.isFootnoteDefinition = false := by
  cases h with
  | here => exact hm
  | inside v p cs c hv _ _ => cases v <;> simp [isContainer] at hv <;> exact ⟨rfl, rfl, rfl⟩

end Hongdown
