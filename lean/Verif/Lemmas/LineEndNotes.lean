import Verif.Lemmas.LineEndDoc
import Verif.Lemmas.FileEndNotes
import Verif.Spec.LineEndNotes

/-!
# Documents with footnotes and tidy lines
-/

namespace Hongdown
open Model Spec

theorem wordsGo_visible : ∀ (s acc : List Char), (∀ c ∈ acc, isWs c = false) → ∀ w ∈ wordsGo acc s, ∀ c ∈ w, isWs c = false
  | [], acc, h, w, hw => by
    rw [wordsGo] at hw
    split at hw
    · cases hw
    · rw [List.mem_singleton] at hw
      subst hw
      simpa using h
  | c :: s, acc, h, w, hw => by
    rw [wordsGo] at hw
    split at hw
    · split at hw
      · exact wordsGo_visible s [] (by simp) w hw
      · rcases List.mem_cons.mp hw with rfl | hw
        · simpa using h
        · exact wordsGo_visible s [] (by simp) w hw
    · next hc =>
      exact wordsGo_visible s (c :: acc) (by
        intro d hd
        rcases List.mem_cons.mp hd with rfl | hd
        · simpa using hc
        · exact h d hd) w hw

theorem endsVisible_word {w : List Char} (h : ∀ c ∈ w, isWs c = false) (hne : w ≠ []) : EndsVisible w :=
  ⟨_, _, (List.dropLast_concat_getLast hne).symm, h _ (List.getLast_mem hne)⟩

theorem fillWords_visible {w : List Char → Nat} {first cont : Nat} : ∀ (ws : List (List Char)) (b : Bool) (cur : List Char),
    cur = [] ∨ EndsVisible cur → (∀ x ∈ ws, EndsVisible x) → ∀ l ∈ fillWords w first cont b cur ws, EndsVisible l
  | [], b, cur, hc, _, l, hl => by
    rw [fillWords] at hl
    split at hl
    · cases hl
    · next hne =>
      rw [List.mem_singleton] at hl
      subst hl
      exact hc.resolve_left hne
  | x :: ws, b, cur, hc, hw, l, hl => by
    have hx := hw x (by simp)
    have hws : ∀ y ∈ ws, EndsVisible y := fun y hy => hw y (by simp [hy])
    rw [fillWords] at hl
    by_cases hne : cur = []
    · rw [if_pos hne] at hl
      exact fillWords_visible ws b x (.inr hx) hws l hl
    · rw [if_neg hne] at hl
      by_cases hle : w cur + 1 + w x ≤ (if b then first else cont)
      · rw [if_pos hle] at hl
        refine fillWords_visible ws b _ (.inr ?_) hws l hl
        have := hx.left (cur ++ [' '])
        simpa using this
      · rw [if_neg hle] at hl
        rcases List.mem_cons.mp hl with rfl | hl
        · exact hc.resolve_left hne
        · exact fillWords_visible ws false x (.inr hx) hws l hl

theorem layout_th {h : Bool} : ∀ (pfx indent : List Char) (ls : List (List Char)), '\n' ∉ pfx → '\n' ∉ indent →
    ls ≠ [] → (∀ l ∈ ls, '\n' ∉ l ∧ EndsVisible l) → Th h (footnoteLines pfx indent ls)
  | pfx, indent, [], _, _, hne, _ => absurd rfl hne
  | pfx, indent, l :: ls, hp, hi, _, hl => by
    rw [layout_mapIdx, layout, List.flatMap_cons]
    refine th_flatMap _ (th_ended ?_ ((hl l (by simp)).2.left _)) fun x hx => ?_
    · simp [hp, (hl l (by simp)).1]
    · obtain ⟨y, hy, rfl⟩ := List.mem_map.mp hx
      have := hl y (by simp [hy])
      exact th_ended (by simp [hi, this.1]) (this.2.left _)

/-- A footnote with something to see in it has tidy lines. -/
theorem footnoteText_th {h : Bool} (cx : Cx) {f : Footnote} (hb : f.hasBlocks = false) (hn : '\n' ∉ f.name)
    (hv : ∃ c ∈ softToSpace f.content, isWs c = false) : Th h (footnoteText cx f) := by
  have hne : splitWs (softToSpace f.content) ≠ [] := by
    apply splitWs_ne_nil
    intro ht
    obtain ⟨c, hc, hw⟩ := hv
    obtain ⟨a, b, ha, hb, e⟩ := trim_append (softToSpace f.content)
    rw [ht, List.append_nil] at e
    rw [e] at hc
    rcases List.mem_append.mp hc with hc | hc
    · rw [ha c hc] at hw; cases hw
    · rw [hb c hc] at hw; cases hw
  have hword : ∀ x ∈ splitWs (softToSpace f.content), EndsVisible x := fun x hx =>
    endsVisible_word (wordsGo_visible _ [] (by simp) x hx) fun e =>
      (show [] ∉ splitWs (softToSpace f.content) from wordsGo_no_nil _ []) (e ▸ hx)
  rw [footnoteText]
  simp only [hb, Bool.false_eq_true, if_false, if_neg hne]
  refine layout_th _ _ _ (by simp [footnotePrefix, hn]) (by simp [spaces]) ?_ fun l hl =>
    ⟨fillWords_no_newline _ _ _ _ _ _ (by simp) (fun x hx => wordsGo_no_newline _ [] (by simp) x hx) l hl,
      fillWords_visible _ _ _ (.inl rfl) hword l hl⟩
  cases hw : splitWs (softToSpace f.content) with
  | nil => exact absurd hw hne
  | cons x ws =>
    rw [fillWords, if_pos rfl]
    refine fillWords_ne _ _ _ ?_
    rintro rfl
    exact (show [] ∉ splitWs (softToSpace f.content) from wordsGo_no_nil _ []) (by rw [hw]; simp)

/-- The state of the loop over the blocks of a tidy document with footnotes. -/
structure TopN (cx : Cx) (h : Bool) (st : St) : Prop where
  lines : TidyLines h st.output
  inv : InvT false st
  refs : ∀ e ∈ st.pendingReferences, TidyRef e.2
  fnRefs : ∀ e ∈ st.footnotes.pendingReferences, TidyRef e.2.1
  notes : ∀ e ∈ st.footnotes.pending, Th h (footnoteText cx e.2)

variable {cx : Cx} {h : Bool}

theorem TopN.act {k : Kid} (hk : KidT cx h false false k) (hb : isItemLike k.node = false) {st : St}
    (hs : TopN cx h st) : TopN cx h (k.act st) := by
  obtain ⟨t, e, ht⟩ := hk.block hb st hs.inv
  have ok := hk.1.act hb st
  obtain ⟨h1, h2⟩ := uses_tidy k.node false false hk.2.1
  refine ⟨e ▸ tidyLines_append hs.lines ht, hs.inv.of_ctx ok.ctx,
    ok.core.pending.values hs.refs fun v hv => h1 v hv, ok.core.fnRefs.values (P := fun v : Ref × Nat => TidyRef v.1) hs.fnRefs fun v hv => h1 v.1 hv, ?_⟩
  obtain ⟨vs, hv, e2⟩ := ok.core.fnPending
  cases vs with
  | nil =>
    have e3 : (k.act st).footnotes.pending = st.footnotes.pending := e2
    rw [e3]
    exact hs.notes
  | cons v vs => have := hv v (by simp); rw [h2] at this; cases this

theorem TopN.push {st : St} (hs : TopN cx h st) {w : List Char} (hw : ∀ c ∈ w, c = '\n') : TopN cx h (st.push w) := by
  refine ⟨?_, ⟨hs.inv.quote, hs.inv.pfx, hs.inv.outer, hs.inv.indent, hs.inv.mark⟩, hs.refs, hs.fnRefs, hs.notes⟩
  show TidyLines h (st.output ++ w)
  cases w with
  | nil => simpa using hs.lines
  | cons c w =>
    rw [hw c (by simp)]
    refine tidyLines_nl hs.lines ?_
    have := tidyLines_breaks w (tidyLines_nil h) fun d hd => hw d (by simp [hd])
    simpa using this

theorem TopN.flush {st : St} (hs : TopN cx h st) (b : Option Nat) : TopN cx h (flushAll cx b st) := by
  obtain ⟨_, _, r3, _⟩ := flushAll_rest cx b st
  refine ⟨?_, hs.inv.of_ctx r3, ?_, ?_, ?_⟩
  · rw [flushAll, flushFootnoteRefs_eq, flushReferences_eq, flushFootnotes_eq]
    simp only
    refine group_tidy (group_tidy (group_tidy hs.lines _ fun f hf => ?_) _ fun r hr => ?_) _ fun r hr => ?_
    · obtain ⟨e, he, rfl, _⟩ := dueFootnotes_mem.mp hf
      exact hs.notes e he
    · obtain ⟨⟨e, he, rfl⟩, _⟩ := refsOut_mem.mp hr
      exact reference_th (hs.refs e he)
    · obtain ⟨e, he, rfl, _⟩ := dueFnRefs_mem.mp hr
      exact reference_th (hs.fnRefs e he)
  · rw [flushAll, flushFootnoteRefs_eq, flushReferences_eq]
    simp
  · rw [flushAll, flushFootnoteRefs_eq, flushReferences_eq, flushFootnotes_eq]
    intro e he
    simp only [keptFnRefs, List.mem_filter] at he
    exact hs.fnRefs e he.1.1
  · rw [flushAll, flushFootnoteRefs_eq, flushReferences_eq, flushFootnotes_eq]
    exact fun e he => hs.notes e (keptFootnotes_mem.mp he).1

theorem TopN.pushTh {st : St} (hs : TopN cx h st) {w : List Char} (hw : Th h w) : TopN cx h (st.push w) :=
  ⟨tidyLines_append hs.lines hw, ⟨hs.inv.quote, hs.inv.pfx, hs.inv.outer, hs.inv.indent, hs.inv.mark⟩, hs.refs, hs.fnRefs,
    hs.notes⟩

/-- The fields that do not matter. -/
theorem TopN.of {st : St} (hs : TopN cx h st) (m : SkipMode) (a b : List (List Char)) :
    TopN cx h { st with skipMode := m, directiveProperNouns := a, directiveCommonNouns := b } :=
  ⟨hs.lines, ⟨hs.inv.quote, hs.inv.pfx, hs.inv.outer, hs.inv.indent, hs.inv.mark⟩, hs.refs, hs.fnRefs, hs.notes⟩

theorem trimEnd_th {l : List Char} (hl : Th h l) (hv : ∃ c ∈ l, isWs c = false) : Th h (trimEnd l) := by
  obtain ⟨t, _, e⟩ := trimEnd_append l
  have hne : trimEnd l ≠ [] := fun h => by
    obtain ⟨c, hc, hw⟩ := hv
    rw [trimEnd_eq_nil_iff.mp h c hc] at hw
    cases hw
  obtain ⟨i, z, m, r, h1, h2, h3⟩ := splitOn_append '\n' (trimEnd l) t
  rw [← e] at h3
  have hz : EndsVisible z := by
    have hg := List.getLast?_eq_some_getLast hne
    have hc := trimEnd_getLast l _ hg
    have := splitOn_end hg (d := '\n') (fun e => by rw [e] at hc; exact absurd hc (by decide))
    simp only [h1, List.getLast_concat] at this
    exact endsVisible_iff.mpr ⟨_, this, hc⟩
  obtain ⟨a, ls, ha, hv, hls⟩ := hl
  rw [ha] at h3
  cases i with
  | nil => exact ⟨z, [], h1, .inl hz, by simp⟩
  | cons y i =>
    rw [List.cons_append, List.cons.injEq] at h3
    refine ⟨y, i ++ [z], h1, h3.1 ▸ hv, fun x hx => ?_⟩
    rcases List.mem_append.mp hx with hx | hx
    · exact hls x (by rw [h3.2]; simp [hx])
    · rw [List.mem_singleton] at hx
      rw [hx]
      exact .inr (.inl hz)

theorem directive_visible {n : Node} {d : Directive} (hd : n.directive = some d) : ∃ c ∈ n.html?.getD [], isWs c = false := by
  rw [Node.directive] at hd
  split at hd
  · next l e =>
    rw [Node.html?, e]
    rw [parseDirective] at hd
    split at hd
    · cases hd
    · next r hr =>
      refine ⟨'<', ?_, by decide⟩
      obtain ⟨a, b, _, _, el⟩ := trim_append l
      have hp := stripPrefix?_iff.mp hr
      show '<' ∈ l
      rw [el, hp]
      simp
  · cases hd

/-- A block of such a document, or the definition of a footnote. -/
structure TopNKid (cx : Cx) (h : Bool) (k : Kid) : Prop where
  kid : k.node.isFootnoteDefinition = false → KidT cx h false false k
  block : isItemLike k.node = false
  file : k.node.directive = some .disableFile → ∀ s, extractSourceFromLine cx (k.node.pos.endLine + 1) = some s → TidyLines h s
  html : ∀ d, k.node.directive = some d → Th h (k.node.html?.getD [])

theorem source_th {s : List Char} (hs : TidySource h s) : Th h (s ++ ['\n']) := by
  obtain ⟨h1, c, e, hc⟩ := hs
  exact (th_of_lines h1 e hc).ended

theorem topBlock_tidyNotes {k : Kid} (hk : KidT cx h false false k) (hb : isItemLike k.node = false) {st : St}
    (hm : st.skipMode = .none ∨ ∀ s, extractSource cx k.node.pos = some s → TidySource h s) (hs : TopN cx h st) :
    TopN cx h (serTopBlock cx k st) ∧ (st.skipMode = .none → (serTopBlock cx k st).skipMode = .none) := by
  rw [serTopBlock]
  by_cases h1 : st.skipMode = .none
  · rw [if_pos h1]
    exact ⟨hs.act hk hb, fun _ => (hk.1.act hb st).core.skip.trans h1⟩
  · rw [if_neg h1]
    refine ⟨?_, fun h => absurd h h1⟩
    split
    · exact (hs.of .none _ _).act hk hb
    · have h2 : TopN cx h (if st.skipMode = .nextBlock then { st with skipMode := .none } else st) := by
        split
        · exact hs.of .none _ _
        · exact hs
      simp only
      split
      · next e => exact h2.pushTh (source_th (hm.resolve_left h1 _ e))
      · exact h2.act hk hb

theorem topChild_tidyNotes {k : Kid} (hk : TopNKid cx h k) (prev : Option Node) (trailing : Bool) {st : St}
    (hm : st.skipMode = .none ∨ ∀ s, extractSource cx k.node.pos = some s → TidySource h s) (hs : TopN cx h st) :
    TopN cx h (serTopChild cx prev trailing k st).1 ∧
      (stopsFormatting k.node = false → st.skipMode = .none → (serTopChild cx prev trailing k st).1.skipMode = .none) := by
  have wr : ∀ (s : St) (m : SkipMode) (a b : List (List Char)), Th h (k.node.html?.getD []) → TopN cx h s →
      TopN cx h (({ s with skipMode := m, directiveProperNouns := a, directiveCommonNouns := b } : St).push
        ((if prev.isSome then ['\n'] else []) ++ k.node.html?.getD [])) := by
    intro s m a b hl h'
    have e : ∀ (t : St) (x y : List Char), t.push (x ++ y) = (t.push x).push y := by simp [St.push]
    rw [e]
    exact ((h'.of m a b).push (by split <;> simp)).pushTh hl
  rw [serTopChild]
  split
  · exact ⟨hs, fun _ h => h⟩
  · split
    · exact ⟨hs, fun _ h => h⟩
    · next hf =>
      cases hd : k.node.directive with
      | some d =>
        have hl := hk.html d hd
        cases d with
        | disableFile =>
          have h2 := (hs.flush (cx := cx) (some k.node.pos.startLine)).pushTh (trimEnd_th hl (directive_visible hd))
          have e := (flushAll_rest cx (some k.node.pos.startLine) st).1
          simp only
          split
          · next r er =>
            exact ⟨⟨tidyLines_nl h2.lines (hk.file hd r er), ⟨h2.inv.quote, h2.inv.pfx, h2.inv.outer, h2.inv.indent, h2.inv.mark⟩,
              h2.refs, h2.fnRefs, h2.notes⟩, fun _ h => e.trans h⟩
          · exact ⟨h2, fun _ h => e.trans h⟩
        | disableNextLine => exact ⟨wr _ .nextBlock _ _ hl (hs.flush _), by simp [stopsFormatting, hd]⟩
        | disableNextSection => exact ⟨wr _ .untilSection _ _ hl (hs.flush _), by simp [stopsFormatting, hd]⟩
        | disable => exact ⟨wr _ .disabled _ _ hl (hs.flush _), by simp [stopsFormatting, hd]⟩
        | enable => exact ⟨wr _ .none _ _ hl hs, fun _ _ => rfl⟩
        | properNouns ns => exact ⟨wr _ st.skipMode _ _ hl hs, fun _ h => h⟩
        | commonNouns ns => exact ⟨wr _ st.skipMode _ _ hl hs, fun _ h => h⟩
      | none =>
        simp only
        have key : ∀ s : St, (s.skipMode = .none ∨ ∀ t, extractSource cx k.node.pos = some t → TidySource h t) → TopN cx h s →
            TopN cx h (serTopBlock cx k (s.push (blockGap prev k.node))) ∧
            (s.skipMode = .none → (serTopBlock cx k (s.push (blockGap prev k.node))).skipMode = .none) := fun s hm h' =>
          topBlock_tidyNotes (st := s.push (blockGap prev k.node)) (hk.kid (by simpa using hf)) hk.block hm
            (h'.push (blockGap_nl prev k.node))
        split
        · have e := (flushAll_rest cx (some k.node.pos.startLine) st).1
          have := key (flushAll cx (some k.node.pos.startLine) st) (by rw [e]; exact hm) (hs.flush _)
          exact ⟨this.1, fun _ h => this.2 (e.trans h)⟩
        · have := key st hm hs
          exact ⟨this.1, fun _ h => this.2 h⟩

theorem topLoop_tidyNotes : ∀ (kids : List Kid) (prev : Option Node) (m : Nat) {st : St},
    (∀ k ∈ kids, TopNKid cx h k) →
    (st.skipMode = .none ∨ ∀ k ∈ kids, ∀ s, extractSource cx k.node.pos = some s → TidySource h s) →
    (∀ A d B, kids = A ++ d :: B → stopsFormatting d.node = true → ∀ k ∈ B, ∀ s, extractSource cx k.node.pos = some s → TidySource h s) →
    TopN cx h st → TopN cx h (serTopLoop cx prev m kids st).1
  | [], _, _, _, _, _, _, hs => hs
  | k :: ks, prev, m, st, hk, hm, hB, hs => by
    obtain ⟨h1, h3⟩ := topChild_tidyNotes (hk k (by simp)) prev (m == 0) (hm.imp_right fun h => h k (by simp)) hs
    rw [serTopLoop]
    split
    · exact h1
    refine topLoop_tidyNotes ks _ _ (fun x hx => hk x (by simp [hx])) ?_
      (fun A d B e => hB (k :: A) d B (by rw [e]; rfl)) h1
    cases ht : stopsFormatting k.node with
    | true => exact .inr (hB [] k ks rfl ht)
    | false =>
      rcases hm with hm | hm
      · exact .inl (h3 ht hm)
      · exact .inr fun x hx => hm x (by simp [hx])

theorem collectInlines_paragraph (cx : Cx) (q : Pos) (is : List Node) :
    collectInlines cx [.mk .paragraph q is] = collectInlines cx is := by
  rw [collectInlines, collectInline.eq_def, collectInlines]
  simp [Inl.append]

/-- The definition of a tidy footnote. -/
theorem TopN.define {st : St} (hs : TopN cx h st) {n : Node} (hn : TidyNote cx n) (nb : Bool) (hw : wellPlaced n = true) :
    TopN cx h (ser cx n nb st) := by
  obtain ⟨name, q, q', is, rfl, hname, ⟨c, hc, hc1, hc2⟩, hr⟩ := hn
  have ok := (ser_ok cx _ nb hw).act (show isItemLike (Node.mk (.footnoteDefinition name) q [.mk .paragraph q' is]) = false from rfl) st
  have hu : ∀ r ∈ (uses cx (.mk (.footnoteDefinition name) q [.mk .paragraph q' is])).may, TidyRef r := by
    intro r hm
    rw [uses] at hm
    simp only [show hasBlocks [Node.mk .paragraph q' is] = false by simp [hasBlocks, Node.value], Bool.false_eq_true, if_false,
      Uses.append_may, collectInlines_paragraph, List.append_nil] at hm
    exact hr r hm
  have hp : ∀ (rs : List Ref) (s : St), (addReferences s rs).footnotes.pending = s.footnotes.pending ∧
      (addReferences s rs).output = s.output := by
    intro rs
    induction rs with
    | nil => exact fun _ => ⟨rfl, rfl⟩
    | cons r rs ih =>
      intro s
      show (addReferences (addReference s r) rs).footnotes.pending = _ ∧ (addReferences (addReference s r) rs).output = _
      rw [(ih _).1, (ih _).2, addReference]
      split <;> exact ⟨rfl, rfl⟩
  refine ⟨?_, hs.inv.of_ctx ok.ctx, ok.core.pending.values hs.refs fun v hv => hu v hv,
    ok.core.fnRefs.values (P := fun v : Ref × Nat => TidyRef v.1) hs.fnRefs fun v hv => hu v.1 hv, ?_⟩
  · rw [ser, dispatch, serFootnoteDefinition]
    simp only [serKids_nodes, show hasBlocks [Node.mk .paragraph q' is] = false by simp [hasBlocks, Node.value],
      Bool.false_eq_true, if_false, (hp _ _).2]
    exact hs.lines
  · intro e he
    rw [ser, dispatch, serFootnoteDefinition] at he
    simp only [serKids_nodes, show hasBlocks [Node.mk .paragraph q' is] = false by simp [hasBlocks, Node.value],
      Bool.false_eq_true, if_false, (hp _ _).1, collectInlines_paragraph] at he
    rcases mem_mapInsert he with rfl | he
    · refine footnoteText_th cx rfl hname ?_
      obtain ⟨a, b, ha, hb, e⟩ := trim_append (collectInlines cx is).1
      refine ⟨c, ?_, hc1⟩
      rw [softToSpace, List.mem_map]
      refine ⟨c, ?_, by simp [hc2]⟩
      rw [e] at hc
      rcases List.mem_append.mp hc with hc | hc
      · rcases List.mem_append.mp hc with hc | hc
        · rw [ha c hc] at hc1; cases hc1
        · exact hc
      · rw [hb c hc] at hc1; cases hc1
    · exact hs.notes e he

theorem TopN.defs : ∀ (K : List Kid) (st : St), (∀ k ∈ K, TidyNote cx k.node ∧ wellPlaced k.node = true ∧
      ∃ nb, k = ⟨k.node, ser cx k.node nb⟩) → TopN cx h st → TopN cx h (runKids K st)
  | [], st, _, hs => hs
  | k :: K, st, hK, hs => by
    obtain ⟨h1, h2, nb, e⟩ := hK k (by simp)
    refine TopN.defs K (k.act st) (fun x hx => hK x (by simp [hx])) ?_
    rw [e]
    exact hs.define h1 nb h2

theorem runKids_skip : ∀ (K : List Kid) (st : St), (∀ k ∈ K, wellPlaced k.node = true ∧ isItemLike k.node = false ∧
      ∃ nb, k = ⟨k.node, ser cx k.node nb⟩) → (runKids K st).skipMode = st.skipMode
  | [], _, _ => rfl
  | k :: K, st, hK => by
    obtain ⟨h1, h2, nb, e⟩ := hK k (by simp)
    have e2 : (k.act st).skipMode = st.skipMode := by
      rw [e]
      exact ((ser_ok cx _ nb h1).act h2 st).core.skip
    exact (runKids_skip K (k.act st) fun x hx => hK x (by simp [hx])).trans e2

theorem recordLines_skip : ∀ (ls : List (List Char × Nat)) (s : St), (recordLines ls s).skipMode = s.skipMode
  | [], _ => rfl
  | l :: ls, s => recordLines_skip ls (recordReferenceLine l.1 l.2 s)

theorem tidyLines_join : ∀ (ls : List (List Char)), (∀ l ∈ ls, '\n' ∉ l ∧ TidyLine h l) → TidyLines h (joinWith ['\n'] ls)
  | [], _ => tidyLines_nil h
  | [l], hl => tidyLines_line (hl l (by simp)).1 (hl l (by simp)).2
  | l :: m :: ls, hl => by
    rw [joinWith]
    have := tidyLines_nl (tidyLines_line (hl l (by simp)).1 (hl l (by simp)).2)
      (tidyLines_join (m :: ls) fun x hx => hl x (by simp [hx]))
    simpa using this

theorem sourceFrom_tidy {k : Nat} {s : List Char} (hl : ∀ l ∈ cx.sourceLines.drop k, '\n' ∉ l ∧ TidyLine h l)
    (e : extractSourceFromLine cx (k + 1) = some s) : TidyLines h s := by
  rw [extractSourceFromLine] at e
  split at e
  · cases e
  · split at e
    · cases e
    · cases e
      have := tidyLines_join _ hl
      split
      · exact tidyLines_nl this (tidyLines_nil h)
      · simpa using this

theorem document_tidyNotes (ho : TidyOptions cx.opts) {p : Pos} {cs : List Node} (hw : wellPlacedDoc cs = true)
    (hd : ∀ n ∈ cs, n.directive = some .disableFile → ∀ l ∈ cx.sourceLines.drop n.pos.endLine, '\n' ∉ l ∧ TidyLine h l)
    (ht : ∀ n ∈ cs, TidyNode cx h false false n ∨ TidyNote cx n)
    (hB : ∀ A d B, cs = A ++ d :: B → stopsFormatting d = true → ∀ n ∈ B, ∀ s, extractSource cx n.pos = some s → TidySource h s) :
    TidyLines h (formatDoc cx (.mk .document p cs)).output := by
  rw [wellPlacedDoc, Bool.and_eq_true, List.all_eq_true] at hw
  have nodes : ∀ k ∈ serKids cx cs, k.node ∈ cs := fun k hk => by
    have hm : k.node ∈ (serKids cx cs).map (·.node) := List.mem_map.mpr ⟨k, hk, rfl⟩
    rwa [serKids_nodes] at hm
  have hno : ∀ n : Node, TidyNote cx n → n.isFootnoteDefinition = true := by
    rintro n ⟨name, q, q', is, rfl, _⟩
    rfl
  have hnt : ∀ n : Node, TidyNode cx h false false n → n.isFootnoteDefinition = false := by
    intro n hn
    obtain ⟨v, p, cs⟩ := n
    cases v <;> simp_all [TidyNode, Node.isFootnoteDefinition, Node.value]
  have kids : ∀ k ∈ serKids cx cs, TopNKid cx h k := fun k hk => by
    refine ⟨fun hf => ?_, by simpa using hw.1 _ (nodes k hk), fun e s es => sourceFrom_tidy (hd _ (nodes k hk) e) es, fun d he => ?_⟩
    rotate_left
    · rcases ht _ (nodes k hk) with h1 | h1
      · cases hl : k.node.html? with
        | some l => exact html_th h1 hl
        | none =>
          rw [Node.html?] at hl
          rw [Node.directive] at he
          split at he
          · next e => rw [e] at hl; cases hl
          · cases he
      · obtain ⟨name, q, q', is, e, _⟩ := h1
        rw [e] at he
        cases he
    obtain ⟨nb, e⟩ := serKids_def cs k hk
    rcases ht _ (nodes k hk) with h1 | h1
    · rw [e]
      exact ser_tidy ho k.node nb false false (wellPlacedList_mem hw.2 (nodes k hk)) h1
    · rw [hno _ h1] at hf; cases hf
  rw [formatDoc, ser, dispatch, serDocument]
  simp only
  have h0 : TopN cx h (recordLines (footnoteRefLinesList ((serKids cx cs).map (·.node)))
      ({ warnings := [] ++ undefinedWarnings cx ((serKids cx cs).map (·.node)) } : St)) := by
    have hr : ∀ (ls : List (List Char × Nat)) (s : St), TopN cx h s → TopN cx h (recordLines ls s) := by
      intro ls
      induction ls with
      | nil => exact fun _ h => h
      | cons l ls ih =>
        intro s hs
        exact ih _ ⟨hs.lines, ⟨hs.inv.quote, hs.inv.pfx, hs.inv.outer, hs.inv.indent, hs.inv.mark⟩, hs.refs, hs.fnRefs, hs.notes⟩
    exact hr _ _ ⟨tidyLines_nil h, ⟨rfl, by simp, by simp, by simp, by simp⟩, by simp, by simp, by simp⟩
  have h0' := TopN.defs ((serKids cx cs).filter fun k => k.node.isFootnoteDefinition) _ (fun k hk => by
    rw [List.mem_filter] at hk
    refine ⟨?_, wellPlacedList_mem hw.2 (nodes k hk.1), serKids_def cs k hk.1⟩
    rcases ht _ (nodes k hk.1) with h1 | h1
    · rw [hnt _ h1] at hk; exact absurd hk.2 (by simp)
    · exact h1) h0
  have hm := (runKids_skip (cx := cx) ((serKids cx cs).filter fun k => k.node.isFootnoteDefinition)
    (recordLines (footnoteRefLinesList ((serKids cx cs).map (·.node)))
      ({ warnings := [] ++ undefinedWarnings cx ((serKids cx cs).map (·.node)) } : St)) fun k hk => by
      rw [List.mem_filter] at hk
      exact ⟨wellPlacedList_mem hw.2 (nodes k hk.1), by simpa using hw.1 _ (nodes k hk.1), serKids_def cs k hk.1⟩).trans
    (recordLines_skip _ _)
  rw [← serFootnoteDefinitions] at h0' hm
  have h1 := topLoop_tidyNotes (serKids cx cs) none (trailingStart ((serKids cx cs).map (·.node))) kids
    (.inl hm) (fun A d B e hoff k hk => by
      refine hB (A.map (·.node)) d.node (B.map (·.node)) ?_ hoff k.node (List.mem_map.mpr ⟨k, hk, rfl⟩)
      have := congrArg (List.map (·.node)) e
      rw [serKids_nodes] at this
      simpa using this) h0'
  split
  · exact h1.lines
  have h3 := h1.flush none
  rw [outputTrailing]
  split
  · exact h3.lines
  · next l ls e =>
    rw [ensureBlankLine_eq]
    have := group_tidy (f := id) h3.lines (l :: ls) (fun x hx => by
      rw [← e, List.mem_filterMap] at hx
      obtain ⟨n, hn, hx⟩ := hx
      have hn := List.mem_of_mem_drop hn
      rw [serKids_nodes] at hn
      rcases ht n hn with h4 | h4
      · exact html_th h4 hx
      · obtain ⟨name, q, q', is, rfl, _⟩ := h4
        simp [Node.html?, Node.value] at hx)
    rw [groupText, if_neg (by simp)] at this
    simpa [St.push] using this

end Hongdown
