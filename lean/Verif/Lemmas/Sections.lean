import Verif.Lemmas.Prefix

/-!
# Documents made of sections
-/

namespace Hongdown
open Model Spec

theorem modeAfter_none {l : List Node} (h : ∀ n ∈ l, n.directive = none) : modeAfter l = .none := by
  rw [modeAfter]
  suffices ∀ l : List Node, (∀ n ∈ l, n.directive = none) → l.foldl modeStep .none = .none from this l h
  intro l
  induction l with
  | nil => exact fun _ => rfl
  | cons n l ih =>
    intro h
    have e : modeStep .none n = .none := by
      rw [modeStep]
      simp [h n (by simp)]
    rw [List.foldl_cons, e]
    exact ih fun n hn => h n (by simp [hn])

theorem startSt_none {l : List Node} (h : ∀ n ∈ l, n.directive = none) : startSt l = {} := by
  have h1 : declaredProper l = [] := by
    rw [declaredProper, List.flatMap_eq_nil_iff]
    intro n hn
    rw [h n hn]
  have h2 : declaredCommon l = [] := by
    rw [declaredCommon, List.flatMap_eq_nil_iff]
    intro n hn
    rw [h n hn]
  rw [startSt, h1, h2]

theorem trailingCount_stop {h : Node} (hp : h.isPlainHtml = false) (hf : h.isFootnoteDefinition = false) (r : List Node) :
    ∀ l : List Node, trailingCount (l ++ h :: r) = trailingCount (l ++ [h])
  | [] => by simp [trailingCount, hp, hf]
  | n :: l => by
    rw [List.cons_append, List.cons_append, trailingCount, trailingCount, trailingCount_stop hp hf r l]

theorem trailingStart_section {h : Node} (hp : h.isPlainHtml = false) (hf : h.isFootnoteDefinition = false)
    (A B : List Node) : trailingStart (A ++ h :: B) = A.length + trailingStart (h :: B) := by
  rw [trailingStart, trailingStart]
  have e : trailingCount (A ++ h :: B).reverse = trailingCount (h :: B).reverse := by
    rw [List.reverse_append, List.reverse_cons, List.append_assoc, List.singleton_append]
    exact trailingCount_stop hp hf A.reverse B.reverse
  have := trailingCount_le (h :: B).reverse
  rw [List.length_reverse] at this
  rw [e, List.length_append]
  omega

theorem headingText_length (cx : Cx) (level : Nat) (text : List Char) : 2 ≤ (headingText cx level text).length := by
  rw [headingText]
  repeat' split
  all_goals simp only [List.length_append, List.length_cons, List.length_nil, List.length_replicate]; omega

theorem heading_length {h : Node} (cx : Cx) (hh : h.headingLevel = some 2 ∨ h.headingLevel = some 3) (nb : Bool) (st : St) :
    2 ≤ (ser cx h nb st).output.length := by
  obtain ⟨v, q, ks⟩ := h
  cases v <;> simp [Node.headingLevel, Node.value] at hh
  rw [ser, dispatch, serHeading]
  simp only [St.push, addReferences_output, List.length_append]
  have := headingText_length cx
  exact Nat.le_trans (this _ _) (Nat.le_add_left _ _)

/-- A section that starts with a heading of the second or third level is written as if it were a document of its own,
if it shares no references with the blocks before. -/
theorem formatDoc_sections {cx : Cx} {p q r : Pos} {A B : List Node} {h : Node}
    (hw : wellPlacedDoc (A ++ h :: B) = true) (hn : noteFreeList (A ++ h :: B) = true)
    (hd : ∀ n ∈ A, n.directive = none)
    (hl : ∀ n, A.getLast? = some n → n.isPlainHtml = false) (hA : A ≠ [])
    (hh : h.headingLevel = some 2 ∨ h.headingLevel = some 3)
    (hE : ∀ l ∈ (formatDoc cx (.mk .document q A)).emittedReferences, ∀ r ∈ namedRefs cx (h :: B), r.label ≠ l) :
    (formatDoc cx (.mk .document p (A ++ h :: B))).output =
      (formatDoc cx (.mk .document q A)).output ++ gapBetween A h ++
        (formatDoc cx (.mk .document r (h :: B))).output := by
  have hf : ∀ n ∈ A ++ h :: B, n.isFootnoteDefinition = false :=
    fun n hm => noteFree_def (noteFreeList_mem hn n hm)
  have hfA : ∀ n ∈ A, n.isFootnoteDefinition = false := fun n hm => hf n (by simp [hm])
  have hfB : ∀ n ∈ h :: B, n.isFootnoteDefinition = false := fun n hm => hf n (by rw [List.mem_append]; exact .inr hm)
  have nfl : ∀ {l : List Node}, (∀ n ∈ l, noteFree n = true) → noteFreeList l = true := by
    intro l
    induction l with
    | nil => exact fun _ => rfl
    | cons n l ih =>
      intro h
      rw [noteFreeList, Bool.and_eq_true]
      exact ⟨h n (by simp), ih fun m hm => h m (by simp [hm])⟩
  have hnA : noteFreeList A = true := nfl fun n hm => noteFreeList_mem hn n (by simp [hm])
  have hnB : noteFreeList (h :: B) = true := nfl fun n hm => noteFreeList_mem hn n (by rw [List.mem_append]; exact .inr hm)
  obtain ⟨hpl, hfd⟩ := heading_plain hh
  have hhd : h.directive = none := by
    obtain ⟨v, r, ks⟩ := h
    cases v <;> simp [Node.headingLevel, Node.value] at hh <;> rfl
  have hwl : wellPlacedList (A ++ h :: B) = true := by
    rw [wellPlacedDoc, Bool.and_eq_true] at hw
    exact hw.2
  have hbl : ∀ c ∈ A ++ h :: B, isItemLike c = false := by
    intro c hc
    rw [wellPlacedDoc, Bool.and_eq_true] at hw
    simpa using List.all_eq_true.mp hw.1 _ hc
  obtain ⟨hwA, hwB⟩ := wellPlacedList_append.mp hwl
  have hts := trailingStart_section hpl hfd A B
  have hpos : 1 ≤ trailingStart (h :: B) := by
    have e := trailingCount_le B.reverse
    have : ∀ l : List Node, trailingCount (l ++ [h]) ≤ l.length := by
      intro l
      induction l with
      | nil => simp [trailingCount, hpl, hfd]
      | cons n l ih =>
        rw [List.cons_append, trailingCount, List.length_cons]
        repeat' split
        all_goals omega
    have := this B.reverse
    rw [trailingStart, List.reverse_cons, List.length_cons]
    rw [List.length_reverse] at this
    omega
  have hAl : (serKids cx A).length = A.length := by
    rw [← congrArg List.length (serKids_nodes cx A), List.length_map]
  have hdk : ∀ k ∈ serKids cx A, k.node ∈ A := by
    intro k hk
    rw [← serKids_nodes cx A]
    exact List.mem_map.mpr ⟨k, hk, rfl⟩
  -- the three runs
  rw [formatDoc, ser, dispatch, serDocument, serKids_nodes, footnotesNone hfA] at hE
  rw [formatDoc, formatDoc, formatDoc, ser, ser, ser, dispatch, dispatch, dispatch, serDocument, serDocument, serDocument,
    serKids_nodes, serKids_nodes, serKids_nodes, footnotesNone hf, footnotesNone hfA, footnotesNone hfB]
  simp only [] at hE ⊢
  have hst := start_alike (({} : St).warnings ++ undefinedWarnings cx (A ++ h :: B))
    (({} : St).warnings ++ undefinedWarnings cx A) (footnoteRefLinesList (A ++ h :: B)) (footnoteRefLinesList A)
  have hst2 : Alike [] [] ({} : St) _ := start_alike ([] : List Warning)
    (({} : St).warnings ++ undefinedWarnings cx (h :: B)) [] (footnoteRefLinesList (h :: B))
  have hinv : TopInv [] (recordLines (footnoteRefLinesList (A ++ h :: B))
      { ({} : St) with warnings := ({} : St).warnings ++ undefinedWarnings cx (A ++ h :: B) }) := by
    have hrec : ∀ (ls : List (List Char × Nat)) (s : St), view (recordLines ls s) = view s ∧
        (recordLines ls s).skipMode = s.skipMode := by
      intro ls
      induction ls with
      | nil => exact fun _ => ⟨rfl, rfl⟩
      | cons l ls ih =>
        intro s
        obtain ⟨h1, h2⟩ := ih (recordReferenceLine l.1 l.2 s)
        exact ⟨h1.trans rfl, h2.trans rfl⟩
    exact ⟨(hrec _ _).2.trans rfl, (hrec _ _).1.trans rfl⟩
  generalize recordLines (footnoteRefLinesList (A ++ h :: B))
      { ({} : St) with warnings := ({} : St).warnings ++ undefinedWarnings cx (A ++ h :: B) } = s1 at *
  generalize recordLines (footnoteRefLinesList A)
      { ({} : St) with warnings := ({} : St).warnings ++ undefinedWarnings cx A } = s2 at *
  generalize recordLines (footnoteRefLinesList (h :: B))
      { ({} : St) with warnings := ({} : St).warnings ++ undefinedWarnings cx (h :: B) } = s3 at *
  obtain ⟨hal, _⟩ := serTopLoop_alike (cx := cx) (serKids cx A)
    (serKids_alike hwA (fun c hc => hbl c (by simp [hc])) hnA (by simp)) none (trailingStart (A ++ h :: B))
    (trailingStart A) (.inr ⟨by omega, by rw [trailingStart_whole hl hfA]; omega⟩) s1 s2 (.inl rfl) hst
  have on1 := serTopLoop_on (cx := cx) (serKids cx A) (fun k hk => by simp [hd _ (hdk k hk)]) none
    (trailingStart (A ++ h :: B)) s1
  have on2 := serTopLoop_on (cx := cx) (serKids cx A) (fun k hk => by simp [hd _ (hdk k hk)]) none (trailingStart A) s2
  have invA : TopInv A (serTopLoop cx none (trailingStart (A ++ h :: B)) (serKids cx A) s1).1 := by
    have := serTopLoop_inv (cx := cx) (serKids cx A) [] (trailingStart (A ++ h :: B)) s1 (by omega)
      (fun k hk => kid_act k hk)
      (fun k hk => ⟨wellPlacedList_mem hwA (hdk k hk), hbl _ (by simp [hdk k hk]), hd _ (hdk k hk)⟩) (by simp) hinv
    rwa [serKids_nodes, List.nil_append, List.getLast?_nil] at this
  have hdrop : A.drop (trailingStart A) = [] := by rw [trailingStart_whole hl hfA, List.drop_length]
  rw [on2, hdrop] at hE ⊢
  have hdrop2 : (A ++ h :: B).drop (trailingStart (A ++ h :: B)) = (h :: B).drop (trailingStart (h :: B)) := by
    rw [hts, ← List.drop_drop, List.drop_left]
  rw [hdrop2, serKids_before cx hh B A, serTopLoop_append cx _ _ _ _ _ on1]
  have hlast : ((serKids cx A).getLast?.map (·.node)).or none = A.getLast? := by
    rw [Option.or_none, ← List.getLast?_map, serKids_nodes]
  rw [hlast, hAl]
  generalize (serTopLoop cx none (trailingStart (A ++ h :: B)) (serKids cx A) s1).1 = sA at *
  generalize (serTopLoop cx none (trailingStart A) (serKids cx A) s2).1 = sB at *
  rw [hts, Nat.add_sub_cancel_left]
  have hm0 : (trailingStart (h :: B) == 0) = false := by
    simp only [beq_eq_false_iff_ne]; omega
  have eC : serTopChild cx A.getLast? false ⟨h, ser cx h (nextIsBracket B)⟩ sA =
      (serTopBlock cx ⟨h, ser cx h (nextIsBracket B)⟩
        ((flushAll cx (some h.pos.startLine) sA).push (gapBetween A h)), false) := by
    rw [serTopChild]
    simp only [Bool.false_and, hfd, hhd, blockGap_eq, getLast_isSome]
    simp [hA, hh]
  have eC3 : serTopChild cx none false ⟨h, ser cx h (nextIsBracket B)⟩ s3 =
      (serTopBlock cx ⟨h, ser cx h (nextIsBracket B)⟩ s3, false) := by
    rw [serTopChild]
    simp [hfd, hhd, blockGap, St.push]
  have eH : serTopLoop cx A.getLast? (trailingStart (h :: B))
      (⟨h, ser cx h (nextIsBracket B)⟩ :: serKids cx B) sA =
      serTopLoop cx (some h) (trailingStart (h :: B) - 1) (serKids cx B)
        (serTopBlock cx ⟨h, ser cx h (nextIsBracket B)⟩
          ((flushAll cx (some h.pos.startLine) sA).push (gapBetween A h))) := by
    rw [serTopLoop, hm0, eC]
    rfl
  have eH3 : serTopLoop cx none (trailingStart (h :: B)) (serKids cx (h :: B)) s3 =
      serTopLoop cx (some h) (trailingStart (h :: B) - 1) (serKids cx B)
        (serTopBlock cx ⟨h, ser cx h (nextIsBracket B)⟩ s3) := by
    rw [serKids, serTopLoop, hm0, eC3]
    rfl
  rw [eH, eH3]
  have hfl := hal.flush (.inl rfl) cx (some h.pos.startLine) none
  simp only [Bool.false_eq_true, if_false] at hE ⊢
  have e2 : (outputTrailing [] (flushAll cx none sB)).output = (flushAll cx (some h.pos.startLine) sA).output :=
    hfl.out.symm
  have e3 : (outputTrailing [] (flushAll cx none sB)).emittedReferences =
      (flushAll cx (some h.pos.startLine) sA).emittedReferences := hfl.emitted.symm
  rw [e3] at hE
  rw [e2]
  -- the section from the heading on
  have hskip : sA.skipMode = .none := invA.mode.trans (modeAfter_none hd)
  have hview : view sA = view {} := invA.view.trans (by rw [startSt_none hd])
  obtain ⟨efl, _⟩ := flushAll_references cx (some h.pos.startLine) hal.left
  have hs3 : unmarked s3 = unmarked ({} : St) := hst2.eq.symm
  have start : Alike ((flushAll cx (some h.pos.startLine) sA).output ++ gapBetween A h)
      (flushAll cx (some h.pos.startLine) sA).emittedReferences
      ((flushAll cx (some h.pos.startLine) sA).push (gapBetween A h)) s3 := by
    have o3 : s3.output = [] := by have := hst2.out; simpa using this.symm
    have m3 : s3.emittedReferences = [] := by have := hst2.emitted; simpa using this.symm
    have p3 : s3.pendingReferences = [] := by
      have := congrArg St.pendingReferences hs3
      exact this
    refine ⟨?_, hfl.left, hst2.right, by rw [o3]; simp [St.push], by rw [m3]; simp [St.push], by rw [p3]; simp⟩
    rw [hs3, efl, flushReferences_eq]
    have hv := hview
    have hw : waiting sA = {} := hal.left
    cases sA
    simp only [view, waiting, St.mk.injEq] at hv hw hskip
    simp only [unmarked, St.push, St.mk.injEq]
    simp_all
  have nodesB : ∀ k ∈ serKids cx (h :: B), KidAlike cx (flushAll cx (some h.pos.startLine) sA).emittedReferences k :=
    serKids_alike hwB (fun c hc => hbl c (by rw [List.mem_append]; exact .inr hc)) hnB
      (fun r hr hl => hE _ hl r hr rfl)
  rw [serKids] at nodesB
  have hH := serTopBlock_alike (nodesB ⟨h, ser cx h (nextIsBracket B)⟩ (by simp)) start
  have long : 2 ≤ (serTopBlock cx ⟨h, ser cx h (nextIsBracket B)⟩ s3).output.length := by
    have hs : s3.skipMode = .none := by
      have := congrArg St.skipMode hs3
      exact this
    rw [serTopBlock, hs]
    exact heading_length cx hh _ _
  obtain ⟨hB1, hB2⟩ := serTopLoop_alike (serKids cx B) (fun k hk => nodesB k (by simp [hk])) (some h)
    (trailingStart (h :: B) - 1) (trailingStart (h :: B) - 1) (.inl rfl) _ _ (.inr long) hH
  have long' : 2 ≤ (serTopLoop cx (some h) (trailingStart (h :: B) - 1) (serKids cx B)
      (serTopBlock cx ⟨h, ser cx h (nextIsBracket B)⟩ s3)).1.output.length :=
    Nat.le_trans long (serTopLoop_grows (cx := cx) (kids := serKids cx B) (fun k hk => (nodesB k (by simp [hk])).ok)
      (fun k hk => (nodesB k (by simp [hk])).block) (some h) _ _).out.length_le
  rw [hB2]
  split
  · exact hB1.out
  · exact outputTrailing_alike (hB1.flush (.inr long') cx none none)
      (.inr (Nat.le_trans long' (grows_flushAll cx none _).out.length_le)) _

end Hongdown
