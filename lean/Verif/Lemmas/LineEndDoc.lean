import Verif.Lemmas.LineEndTree
import Verif.Lemmas.DocRun

/-!
# Documents with tidy lines
-/

namespace Hongdown
open Model Spec

theorem reference_th {h : Bool} {r : Ref} (hr : TidyRef r) : Th h (referenceText r) := by
  obtain ⟨h1, h2, h3, h4⟩ := hr
  have hl : '\n' ∉ softToSpace r.label := by
    rw [softToSpace, List.mem_map]
    rintro ⟨c, hc, e⟩
    split at e
    · revert e; decide
    · exact h1 (e ▸ hc)
  have key : EndsVisible (['['] ++ softToSpace r.label ++ [']', ':', ' '] ++ r.url ++ titlePart r.title) := by
    rw [titlePart]
    split
    · simpa using h4.left (['['] ++ softToSpace r.label ++ [']', ':', ' '])
    · exact ⟨['['] ++ softToSpace r.label ++ [']', ':', ' '] ++ r.url ++ ([' ', '"'] ++ r.title), '"', by simp, by decide⟩
  have ht : '\n' ∉ titlePart r.title := by
    rw [titlePart]
    split <;> simp [h3]
  rw [referenceText]
  exact th_ended (by simp [hl, h2, ht]) key

mutual
theorem uses_tidy {cx : Cx} {h : Bool} : ∀ (n : Node) (q i : Bool), TidyNode cx h q i n →
    (∀ r ∈ (uses cx n).may, TidyRef r) ∧ (uses cx n).fns = []
  | .mk v p cs, q, i, hc => by
    cases v <;> simp only [TidyNode] at hc
    case paragraph =>
      simp only [uses]
      split
      · exact ⟨hc.2.2, rfl⟩
      · exact ⟨hc.2.2, rfl⟩
    case heading => exact ⟨hc.2.2, rfl⟩
    case codeBlock => exact ⟨by simp [uses], rfl⟩
    case htmlBlock => exact ⟨by simp [uses], rfl⟩
    case frontMatter => exact ⟨by simp [uses], rfl⟩
    case thematicBreak => exact ⟨by simp [uses], rfl⟩
    case table =>
      refine ⟨fun r hr => ?_, rfl⟩
      simp only [uses, Uses.of_may, List.mem_flatMap] at hr
      obtain ⟨row, hrow, cell, hcell, hr⟩ := hr
      exact (hc.2 row hrow cell hcell).2 r hr
    case list => simp only [uses]; exact usesList_tidy cs q i hc.2
    case item => simp only [uses]; exact usesList_tidy cs q true hc.2
    case taskItem => simp only [uses]; exact usesList_tidy cs q true hc.2
    case blockQuote => simp only [uses]; exact usesList_tidy cs true false hc.2
    case alert => simp only [uses]; exact usesList_tidy cs true false hc
    case descriptionList => simp only [uses]; exact usesList_tidy cs q i hc.2
    case descriptionItem => simp only [uses]; exact usesList_tidy cs q i hc.2
    case descriptionTerm => simp only [uses]; exact usesList_tidy cs q i hc.2
    case descriptionDetails => simp only [uses]; exact usesList_tidy cs q i hc.2

theorem usesList_tidy {cx : Cx} {h : Bool} : ∀ (cs : List Node) (q i : Bool), TidyNodes cx h q i cs →
    (∀ r ∈ (usesList cx cs).may, TidyRef r) ∧ (usesList cx cs).fns = []
  | [], _, _, _ => ⟨by simp [usesList], rfl⟩
  | n :: ns, q, i, hc => by
    rw [TidyNodes] at hc
    obtain ⟨h1, h2⟩ := uses_tidy n q i hc.1
    obtain ⟨h3, h4⟩ := usesList_tidy ns q i hc.2
    refine ⟨fun r hr => ?_, ?_⟩
    · rw [usesList, Uses.append_may, List.mem_append] at hr
      exact hr.elim (h1 r) (h3 r)
    · rw [usesList]
      show _ ++ _ = _
      rw [h2, h4]; rfl
end

theorem mem_mapInsert {β : Type} {k : List Char} {v : β} : ∀ {m : List (List Char × β)} {e : List Char × β},
    e ∈ mapInsert k v m → e = (k, v) ∨ e ∈ m
  | [], e, h => by simp [mapInsert] at h; exact .inl h
  | (k', v') :: m, e, h => by
    rw [mapInsert] at h
    split at h
    · rcases List.mem_cons.mp h with h | h
      · exact .inl h
      · exact .inr (by simp [h])
    · rcases List.mem_cons.mp h with h | h
      · exact .inr (by simp [h])
      · exact (mem_mapInsert h).imp id fun h => by simp [h]

theorem MapGrow.values {β : Type} {key : β → List Char} {ok P : β → Prop} {m m' : List (List Char × β)} (h : MapGrow key ok m m')
    (hm : ∀ e ∈ m, P e.2) (hp : ∀ v, ok v → P v) : ∀ e ∈ m', P e.2 := by
  obtain ⟨vs, hv, rfl⟩ := h
  induction vs generalizing m with
  | nil => exact hm
  | cons v vs ih =>
    rw [List.foldl_cons]
    refine ih (fun e he => ?_) fun x hx => hv x (by simp [hx])
    rcases mem_mapInsert he with rfl | he
    · exact hp v (hv v (by simp))
    · exact hm e he

/-- The state of the loop over the blocks of a tidy document. -/
structure TopT (h : Bool) (st : St) : Prop where
  lines : TidyLines h st.output
  inv : InvT false st
  mode : st.skipMode = .none
  refs : ∀ e ∈ st.pendingReferences, TidyRef e.2
  fnRefs : ∀ e ∈ st.footnotes.pendingReferences, TidyRef e.2.1
  fns : st.footnotes.pending = []

theorem TopT.act {cx : Cx} {h : Bool} {k : Kid} (hk : KidT cx h false false k) (hb : isItemLike k.node = false) {st : St}
    (hs : TopT h st) : TopT h (k.act st) := by
  obtain ⟨t, e, ht⟩ := hk.block hb st hs.inv
  have ok := hk.1.act hb st
  obtain ⟨h1, h2⟩ := uses_tidy k.node false false hk.2.1
  refine ⟨e ▸ tidyLines_append hs.lines ht, hs.inv.of_ctx ok.ctx, ok.core.skip.trans hs.mode,
    ok.core.pending.values hs.refs fun v hv => h1 v hv, ok.core.fnRefs.values (P := fun v : Ref × Nat => TidyRef v.1) hs.fnRefs fun v hv => h1 v.1 hv, ?_⟩
  obtain ⟨vs, hv, e2⟩ := ok.core.fnPending
  cases vs with
  | nil => exact e2.trans hs.fns
  | cons v vs => have := hv v (by simp); rw [h2] at this; cases this

theorem TopT.push {h : Bool} {st : St} (hs : TopT h st) {w : List Char} (hw : ∀ c ∈ w, c = '\n') : TopT h (st.push w) := by
  refine ⟨?_, ⟨hs.inv.quote, hs.inv.pfx, hs.inv.outer, hs.inv.indent, hs.inv.mark⟩, hs.mode, hs.refs, hs.fnRefs, hs.fns⟩
  show TidyLines h (st.output ++ w)
  cases w with
  | nil => simpa using hs.lines
  | cons c w =>
    rw [hw c (by simp)]
    refine tidyLines_nl hs.lines ?_
    have := tidyLines_breaks w (tidyLines_nil h) fun d hd => hw d (by simp [hd])
    simpa using this

theorem group_tidy {h : Bool} {α : Type} {f : α → List Char} {out : List Char} (ho : TidyLines h out) (xs : List α)
    (hx : ∀ x ∈ xs, Th h (f x)) : TidyLines h (out ++ groupText out f xs) := by
  rw [groupText]
  split
  · simpa using ho
  · rw [← List.append_assoc]
    have h1 : TidyLines h (out ++ gapOf out) := by
      rw [gapOf]
      split
      · simpa using ho
      · split
        · exact tidyLines_nl ho (tidyLines_nil h)
        · exact tidyLines_nl ho (tidyLines_nl (a := []) (tidyLines_nil h) (tidyLines_nil h))
    generalize out ++ gapOf out = o at h1
    clear ho
    induction xs generalizing o with
    | nil => simpa using h1
    | cons x xs ih =>
      rename_i hne
      rw [List.map_cons, List.flatten_cons, ← List.append_assoc]
      by_cases hxs : xs = []
      · subst hxs; simpa using tidyLines_append h1 (hx x (by simp))
      · exact ih (fun y hy => hx y (by simp [hy])) hxs _ (tidyLines_append h1 (hx x (by simp)))

theorem TopT.flush {h : Bool} {st : St} (cx : Cx) (hs : TopT h st) (b : Option Nat) : TopT h (flushAll cx b st) := by
  obtain ⟨r1, _, r3, _⟩ := flushAll_rest cx b st
  refine ⟨?_, hs.inv.of_ctx r3, r1.trans hs.mode, ?_, ?_, ?_⟩
  · have hf : footnotesOut b st = [] := by
      rw [footnotesOut, order_eq_nil, dueFootnotes, hs.fns]; rfl
    rw [flushAll, flushFootnoteRefs_eq, flushReferences_eq, flushFootnotes_eq]
    simp only
    refine group_tidy (group_tidy ?_ _ fun r hr => ?_) _ fun r hr => ?_
    · rw [hf]
      simpa [groupText] using hs.lines
    · obtain ⟨⟨e, he, rfl⟩, _⟩ := refsOut_mem.mp hr
      exact reference_th (hs.refs e he)
    · obtain ⟨e, he, rfl, _⟩ := dueFnRefs_mem.mp hr
      exact reference_th (hs.fnRefs e he)
  · rw [flushAll, flushFootnoteRefs_eq, flushReferences_eq]
    simp
  · rw [flushAll, flushFootnoteRefs_eq, flushReferences_eq, flushFootnotes_eq]
    intro e he
    simp only [keptFnRefs, List.mem_filter] at he
    exact hs.fnRefs e he.1.1
  · rw [flushAll, flushFootnoteRefs_eq, flushReferences_eq, flushFootnotes_eq]
    simp [keptFootnotes, hs.fns]

/-- A block of a tidy document. -/
structure TopKid (cx : Cx) (h : Bool) (k : Kid) : Prop where
  kid : KidT cx h false false k
  block : isItemLike k.node = false
  directive : k.node.directive = none

theorem TopKid.footnote {cx : Cx} {h : Bool} {k : Kid} (hk : TopKid cx h k) : k.node.isFootnoteDefinition = false := by
  have := hk.kid.2.1
  obtain ⟨⟨v, p, cs⟩, a⟩ := k
  cases v <;> simp_all [TidyNode, Node.isFootnoteDefinition, Node.value]

theorem blockGap_nl (prev : Option Node) (n : Node) : ∀ c ∈ blockGap prev n, c = '\n' := by
  rw [blockGap.eq_def]
  repeat' split
  all_goals simp

theorem topChild_tidy {cx : Cx} {h : Bool} {k : Kid} (hk : TopKid cx h k) (prev : Option Node) (trailing : Bool) {st : St}
    (hs : TopT h st) : TopT h (serTopChild cx prev trailing k st).1 ∧ (serTopChild cx prev trailing k st).2 = false := by
  rw [serTopChild, hk.footnote, hk.directive]
  simp only [Bool.false_eq_true, if_false]
  split
  · exact ⟨hs, rfl⟩
  · refine ⟨?_, rfl⟩
    simp only
    have key : ∀ s, TopT h s → TopT h (serTopBlock cx k (s.push (blockGap prev k.node))) := fun s h' => by
      have h2 := h'.push (blockGap_nl prev k.node)
      rw [serTopBlock, if_pos h2.mode]
      exact h2.act hk.kid hk.block
    split
    · exact key _ (hs.flush cx _)
    · exact key _ hs

theorem topLoop_tidy {cx : Cx} {h : Bool} : ∀ (kids : List Kid) (prev : Option Node) (m : Nat) {st : St},
    (∀ k ∈ kids, TopKid cx h k) → TopT h st →
    TopT h (serTopLoop cx prev m kids st).1 ∧ (serTopLoop cx prev m kids st).2 = false
  | [], _, _, _, _, hs => ⟨hs, rfl⟩
  | k :: ks, prev, m, st, hk, hs => by
    obtain ⟨h1, h2⟩ := topChild_tidy (hk k (by simp)) prev (m == 0) hs
    rw [serTopLoop]
    simp only [h2, Bool.false_eq_true, if_false]
    exact topLoop_tidy ks _ _ (fun x hx => hk x (by simp [hx])) h1

theorem html_th {cx : Cx} {h q i : Bool} {n : Node} {l : List Char} (hn : TidyNode cx h q i n) (hl : n.html? = some l) : Th h l := by
  obtain ⟨v, p, cs⟩ := n
  cases v <;> simp [Node.html?, Node.value] at hl
  subst hl
  simp only [TidyNode] at hn
  obtain ⟨h1, c, u, e, hc⟩ := hn
  exact th_of_lines h1 (by rw [e]; rfl) hc

theorem tidyNodes_mem {cx : Cx} {h q i : Bool} : ∀ {cs : List Node}, TidyNodes cx h q i cs → ∀ n ∈ cs, TidyNode cx h q i n
  | [], _, n, hn => by simp at hn
  | m :: cs, hc, n, hn => by
    rw [TidyNodes] at hc
    rcases List.mem_cons.mp hn with rfl | hn
    · exact hc.1
    · exact tidyNodes_mem hc.2 n hn

theorem document_tidy {cx : Cx} (ho : TidyOptions cx.opts) {h : Bool} {p : Pos} {cs : List Node} (hw : wellPlacedDoc cs = true)
    (hd : ∀ n ∈ cs, n.directive = none) (ht : TidyNodes cx h false false cs) :
    TidyLines h (formatDoc cx (.mk .document p cs)).output := by
  rw [wellPlacedDoc, Bool.and_eq_true, List.all_eq_true] at hw
  have nodes : ∀ k ∈ serKids cx cs, k.node ∈ cs := fun k hk => by
    have hm : k.node ∈ (serKids cx cs).map (·.node) := List.mem_map.mpr ⟨k, hk, rfl⟩
    rwa [serKids_nodes] at hm
  have kids : ∀ k ∈ serKids cx cs, TopKid cx h k := fun k hk =>
    ⟨serKids_tidy ho cs false false hw.2 ht k hk, by simpa using hw.1 _ (nodes k hk), hd _ (nodes k hk)⟩
  rw [formatDoc, ser, dispatch, serDocument]
  simp only
  have hf : ∀ st, serFootnoteDefinitions (serKids cx cs) st = st := fun st => by
    rw [serFootnoteDefinitions, List.filter_eq_nil_iff.mpr (fun k hk => by simp [(kids k hk).footnote])]
    rfl
  rw [hf]
  have h0 : TopT h (recordLines (footnoteRefLinesList ((serKids cx cs).map (·.node)))
      ({ warnings := [] ++ undefinedWarnings cx ((serKids cx cs).map (·.node)) } : St)) := by
    have hr : ∀ (ls : List (List Char × Nat)) (s : St), TopT h s → TopT h (recordLines ls s) := by
      intro ls
      induction ls with
      | nil => exact fun _ h => h
      | cons l ls ih =>
        intro s hs
        exact ih _ ⟨hs.lines, ⟨hs.inv.quote, hs.inv.pfx, hs.inv.outer, hs.inv.indent, hs.inv.mark⟩, hs.mode, hs.refs, hs.fnRefs, hs.fns⟩
    exact hr _ _ ⟨tidyLines_nil h, ⟨rfl, by simp, by simp, by simp, by simp⟩, rfl, by simp, by simp, rfl⟩
  obtain ⟨h1, h2⟩ := topLoop_tidy (serKids cx cs) none (trailingStart ((serKids cx cs).map (·.node))) kids h0
  rw [if_neg (by rw [h2]; simp)]
  have h3 := h1.flush cx none
  rw [outputTrailing]
  split
  · exact h3.lines
  · next l ls e =>
    rw [ensureBlankLine_eq]
    have := group_tidy (f := id) h3.lines (l :: ls) (fun x hx => by
      rw [← e, List.mem_filterMap] at hx
      obtain ⟨n, hn, hx⟩ := hx
      have hn := List.mem_of_mem_drop hn
      rw [serKids_nodes] at hn
      exact html_th (tidyNodes_mem ht n hn) hx)
    rw [groupText, if_neg (by simp)] at this
    simpa [St.push] using this

end Hongdown
