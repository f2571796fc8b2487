import Verif.Lemmas.KeepText

/-!
# The text of footnotes is kept
-/

namespace Hongdown
open Model Spec

/-! ### The lines of a footnote -/

theorem visible_softToSpace (s : List Char) : visible (softToSpace s) = visible s := by
  induction s with
  | nil => rfl
  | cons c s ih =>
    simp only [softToSpace, visible, List.map_cons, List.filter_cons] at ih ⊢
    by_cases h : c = '\x00'
    · subst h
      simpa [show isWs ' ' = true by decide] using ih
    · simp only [h, if_false, ih]

theorem visible_wordsGo : ∀ (s acc : List Char), (wordsGo acc s).flatMap visible = visible (acc.reverse ++ s)
  | [], acc => by
    rw [wordsGo]
    split
    · rename_i h; simp [h, visible]
    · simp
  | c :: cs, acc => by
    rw [wordsGo]
    have e : ∀ (h : isWs c = true), visible (acc.reverse ++ c :: cs) = visible acc.reverse ++ visible cs := by
      intro h
      rw [visible_append, show (c :: cs) = [c] ++ cs from rfl, visible_append [c], visible_ws (t := [c]) (by simpa using h)]
      rfl
    split
    · rename_i h
      split
      · rename_i ha
        rw [visible_wordsGo cs [], e h, ha]
        rfl
      · rw [List.flatMap_cons, visible_wordsGo cs [], e h]
        rfl
    · rw [visible_wordsGo cs (c :: acc)]
      simp

theorem visible_fillWords (w : List Char → Nat) (first cont : Nat) : ∀ (ws : List (List Char)) (b : Bool) (cur : List Char),
    (fillWords w first cont b cur ws).flatMap visible = visible cur ++ ws.flatMap visible
  | [], b, cur => by
    rw [fillWords]
    split
    · rename_i h; rw [h]; rfl
    · simp
  | x :: ws, b, cur => by
    rw [fillWords]
    split
    · rename_i h
      rw [visible_fillWords w first cont ws b x, h]
      rfl
    · generalize (if b = true then first else cont) = lim
      split
      · rw [visible_fillWords w first cont ws, visible_append, show (' ' :: x) = [' '] ++ x from rfl, visible_append [' '],
          visible_ws (t := [' ']) (by decide)]
        simp
      · rw [List.flatMap_cons, visible_fillWords w first cont ws]
        simp

theorem linesGo_no_newline : ∀ (s acc : List Char), '\n' ∉ acc → ∀ l ∈ linesGo acc s, '\n' ∉ l
  | [], acc, h, l, hl => by
    rw [linesGo] at hl
    split at hl
    · simp at hl
    · simp at hl; subst hl; simpa using h
  | c :: cs, acc, h, l, hl => by
    rw [linesGo] at hl
    split at hl
    · rcases List.mem_cons.mp hl with rfl | hl
      · intro hm
        rw [stripCR] at hm
        split at hm
        · exact h (by simpa using (List.dropLast_sublist _).subset hm)
        · exact h (by simpa using hm)
      · exact linesGo_no_newline cs [] (by simp) l hl
    · rename_i hc
      exact linesGo_no_newline cs (c :: acc) (by simp [h, Ne.symm hc]) l hl

theorem wordsGo_no_newline : ∀ (s acc : List Char), '\n' ∉ acc → ∀ l ∈ wordsGo acc s, '\n' ∉ l
  | [], acc, h, l, hl => by
    rw [wordsGo] at hl
    split at hl
    · simp at hl
    · simp at hl; subst hl; simpa using h
  | c :: cs, acc, h, l, hl => by
    rw [wordsGo] at hl
    split at hl
    · split at hl
      · exact wordsGo_no_newline cs [] (by simp) l hl
      · rcases List.mem_cons.mp hl with rfl | hl
        · simpa using h
        · exact wordsGo_no_newline cs [] (by simp) l hl
    · rename_i hc
      exact wordsGo_no_newline cs (c :: acc) (by
        simp only [List.mem_cons, not_or]
        exact ⟨by rintro rfl; exact hc (by decide), h⟩) l hl

theorem fillWords_no_newline (w : List Char → Nat) (first cont : Nat) : ∀ (ws : List (List Char)) (b : Bool) (cur : List Char),
    '\n' ∉ cur → (∀ x ∈ ws, '\n' ∉ x) → ∀ l ∈ fillWords w first cont b cur ws, '\n' ∉ l
  | [], b, cur, hc, _, l, hl => by
    rw [fillWords] at hl
    split at hl
    · simp at hl
    · simp at hl; subst hl; exact hc
  | x :: ws, b, cur, hc, hw, l, hl => by
    rw [fillWords] at hl
    have hx := hw x (by simp)
    have hws : ∀ x ∈ ws, '\n' ∉ x := fun x hx => hw x (by simp [hx])
    split at hl
    · exact fillWords_no_newline w first cont ws _ _ hx hws l hl
    · generalize (if b = true then first else cont) = lim at hl
      split at hl
      · exact fillWords_no_newline w first cont ws _ _ (by simp [hc, hx]) hws l hl
      · rcases List.mem_cons.mp hl with rfl | hl
        · exact hc
        · exact fillWords_no_newline w first cont ws _ _ hx hws l hl

theorem splitOn_lines : ∀ (ls : List (List Char)), (∀ l ∈ ls, '\n' ∉ l) →
    splitOn '\n' (ls.flatMap (· ++ ['\n'])) = ls ++ [[]]
  | [], _ => rfl
  | l :: ls, h => by
    rw [List.flatMap_cons, List.append_assoc, List.singleton_append, splitOn_append_sep (h l (by simp)),
      splitOn_lines ls fun l hl => h l (by simp [hl])]
    rfl

/-- The shape of a footnote: its name, and lines that are empty or indented. -/
theorem footnoteText_shape (cx : Cx) (f : Footnote) (hn : '\n' ∉ f.name) :
    footnoteText cx f = [] ∨ (footnotePrefix f.name <+: footnoteText cx f ∧
      ∀ l ∈ (splitOn '\n' (footnoteText cx f)).tail, l = [] ∨ spaces (byteLen (footnotePrefix f.name)) <+: l) := by
  have hp : '\n' ∉ footnotePrefix f.name := by simp [footnotePrefix, hn]
  have hsp : '\n' ∉ spaces (byteLen (footnotePrefix f.name)) := by simp [spaces]
  have key : ∀ (a : List Char) (rest : List (List Char)), '\n' ∉ a → (∀ l ∈ rest, '\n' ∉ l) →
      (∀ l ∈ rest, l = [] ∨ spaces (byteLen (footnotePrefix f.name)) <+: l) →
      footnotePrefix f.name <+: ((footnotePrefix f.name ++ a) :: rest).flatMap (· ++ ['\n']) ∧
      ∀ l ∈ (splitOn '\n' (((footnotePrefix f.name ++ a) :: rest).flatMap (· ++ ['\n']))).tail,
        l = [] ∨ spaces (byteLen (footnotePrefix f.name)) <+: l := by
    intro a rest ha hr hi
    refine ⟨by simp [List.flatMap_cons, List.append_assoc], ?_⟩
    rw [splitOn_lines _ (by
      intro l hl
      rcases List.mem_cons.mp hl with rfl | hl
      · simp [hp, ha]
      · exact hr l hl)]
    intro l hl
    simp only [List.cons_append, List.tail_cons, List.mem_append, List.mem_singleton] at hl
    rcases hl with hl | rfl
    · exact hi l hl
    · exact .inl rfl
  rw [footnoteText]
  simp only []
  split
  · rw [footnoteBlockLines]
    have hl := linesGo_no_newline f.content [] (by simp)
    rw [← lines] at hl
    cases hls : lines f.content with
    | nil => exact .inl rfl
    | cons l ls =>
      rw [hls] at hl
      refine .inr ?_
      have e : (List.mapIdx (fun i line => (if i = 0 then footnotePrefix f.name ++ line else
            if line = [] then [] else spaces (byteLen (footnotePrefix f.name)) ++ line) ++ ['\n']) (l :: ls)).flatten =
          ((footnotePrefix f.name ++ l) :: ls.map fun line =>
            if line = [] then [] else spaces (byteLen (footnotePrefix f.name)) ++ line).flatMap (· ++ ['\n']) := by
        rw [List.mapIdx_cons, List.flatten_cons, List.flatMap_cons, List.flatMap_map, List.flatMap_def]
        simp only [if_true]
        congr 2
        rw [List.mapIdx_eq_iff.mpr]
        intro i
        simp
      rw [e]
      refine key l _ (hl l (by simp)) ?_ ?_
      · intro x hx
        obtain ⟨y, hy, rfl⟩ := List.mem_map.mp hx
        split
        · simp
        · simp [hsp, hl y (by simp [hy])]
      · intro x hx
        obtain ⟨y, hy, rfl⟩ := List.mem_map.mp hx
        split
        · exact .inl rfl
        · exact .inr (List.prefix_append _ _)
  · have hw := wordsGo_no_newline (softToSpace f.content) [] (by simp)
    rw [← splitWs] at hw
    split
    · refine .inr ?_
      have := key [] [] (by simp) (by simp) (by simp)
      simpa using this
    · rw [footnoteLines]
      have hl := fillWords_no_newline cx.width (cx.opts.lineWidth - cx.width (footnotePrefix f.name))
        (cx.opts.lineWidth - byteLen (footnotePrefix f.name)) _ true [] (by simp) hw
      revert hl
      generalize fillWords cx.width (cx.opts.lineWidth - cx.width (footnotePrefix f.name))
        (cx.opts.lineWidth - byteLen (footnotePrefix f.name)) true [] (splitWs (softToSpace f.content)) = lls
      intro hl
      cases lls with
      | nil => exact .inl rfl
      | cons l ls =>
        refine .inr ?_
        have e : (List.mapIdx (fun i line => (if i = 0 then footnotePrefix f.name else
              spaces (byteLen (footnotePrefix f.name))) ++ line ++ ['\n']) (l :: ls)).flatten =
            ((footnotePrefix f.name ++ l) :: ls.map fun line =>
              spaces (byteLen (footnotePrefix f.name)) ++ line).flatMap (· ++ ['\n']) := by
          rw [List.mapIdx_cons, List.flatten_cons, List.flatMap_cons, List.flatMap_map, List.flatMap_def]
          simp only [if_true]
          congr 2
          rw [List.mapIdx_eq_iff.mpr]
          intro i
          simp
        rw [e]
        refine key l _ (hl l (by simp)) ?_ ?_
        · intro x hx
          obtain ⟨y, hy, rfl⟩ := List.mem_map.mp hx
          simp [hsp, hl y (by simp [hy])]
        · intro x hx
          obtain ⟨y, hy, rfl⟩ := List.mem_map.mp hx
          exact .inr (List.prefix_append _ _)

theorem within_footnoteText (cx : Cx) (f : Footnote) : VisIn f.content (footnoteText cx f) := by
  rw [footnoteText]
  simp only []
  split
  · have e : VisIn f.content ((lines f.content).flatMap id) := by
      have := within_lines f.content id fun l => VisIn.refl l
      exact this
    refine e.trans ?_
    rw [footnoteBlockLines]
    refine within_mapIdx _ _ _ fun i l _ => VisIn.right ?_ _
    split
    · exact (VisIn.refl l).left _
    · split
      · rename_i h; rw [h]; exact .refl _
      · exact (VisIn.refl l).left _
  · have e : visible f.content = (splitWs (softToSpace f.content)).flatMap visible := by
      rw [splitWs, visible_wordsGo]
      exact (visible_softToSpace _).symm
    split
    · rename_i h
      rw [VisIn, e, h]
      exact List.nil_sublist _
    · rw [footnoteLines]
      refine VisIn.trans (b := ((fillWords cx.width (cx.opts.lineWidth - cx.width (footnotePrefix f.name))
        (cx.opts.lineWidth - byteLen (footnotePrefix f.name)) true [] (splitWs (softToSpace f.content))).flatMap id)) ?_
        (within_mapIdx _ _ _ fun i l _ => ((VisIn.refl l).left _).right _)
      refine within_of_visible ?_
      rw [show ∀ x : List (List Char), x.flatMap id = x.flatten by intro x; simp [List.flatMap_id'], visible_flatten,
        visible_fillWords, e]
      rfl

/-! ### Blocks without definitions -/

mutual
theorem uses_noteFree (cx : Cx) : ∀ n : Node, noteFree n = true → (uses cx n).fns = []
  | .mk v p cs, h => by
    rw [noteFree, Bool.and_eq_true] at h
    have ih := usesList_noteFree cx cs h.2
    have h1 := h.1
    unfold uses
    cases v <;> simp only [usesOf, Uses.of_fns, Uses.none_fns] <;> first
      | exact ih
      | (simp [noteName, Node.value] at h1; done)
      | (split <;> simp [usesOf, ih] ; done)
      | skip
    · split
      · split <;> simp [usesOf, ih]
      · split
        · exact ih
        · split
          · rfl
          · simp only [Uses.append_fns, Uses.of_fns]
            split <;> rfl

theorem usesList_noteFree (cx : Cx) : ∀ ns : List Node, noteFreeList ns = true → (usesList cx ns).fns = []
  | [], _ => rfl
  | n :: ns, h => by
    rw [noteFreeList, Bool.and_eq_true] at h
    rw [usesList, Uses.append_fns, uses_noteFree cx n h.1, usesList_noteFree cx ns h.2]
    rfl
end

theorem MapGrow.mem {β : Type} {key : β → List Char} {ok : β → Prop} {m m' : List (List Char × β)}
    (h : MapGrow key ok m m') {e : List Char × β} (he : e ∈ m') : e ∈ m ∨ ok e.2 ∧ e.1 = key e.2 := by
  obtain ⟨vs, hv, rfl⟩ := h
  induction vs generalizing m with
  | nil => exact .inl he
  | cons v vs ih =>
    rcases ih (fun v hm => hv v (by simp [hm])) he with h | h
    · rcases mapInsert_mem h with rfl | h
      · exact .inr ⟨hv v (by simp), rfl⟩
      · exact .inl h
    · exact .inr h

theorem MapGrow.none {β : Type} {key : β → List Char} {ok : β → Prop} {m m' : List (List Char × β)}
    (h : MapGrow key ok m m') (hn : ∀ v, ¬ ok v) : m' = m := by
  obtain ⟨vs, hv, rfl⟩ := h
  cases vs with
  | nil => rfl
  | cons v vs => exact absurd (hv v (by simp)) (hn v)

/-! ### A footnote with a property is written -/

/-- The footnote is pending with the property `p`. -/
def PendingNote (name : List Char) (p : Footnote → Prop) (st : St) : Prop :=
  name ∉ st.footnotes.emitted ∧ (name ∈ st.footnotes.pending.map (·.1)) ∧
    (∀ e ∈ st.footnotes.pending, e.1 = e.2.name) ∧ ∀ e ∈ st.footnotes.pending, e.1 = name → p e.2

/-- The footnote was written with the property `p`, or it is pending with it. -/
def Note (cx : Cx) (name : List Char) (p : Footnote → Prop) (st : St) : Prop :=
  (∃ f, f.name = name ∧ p f ∧ footnoteText cx f <:+: st.output) ∨ PendingNote name p st

theorem PendingNote.ok {name : List Char} {p : Footnote → Prop} {u : Uses} {a b : St}
    (h : PendingNote name p a) (ho : OkAt u a b) (hn : name ∉ u.fns) : PendingNote name p b := by
  obtain ⟨h1, h2, h3, h4⟩ := h
  have hf := ho.core.fnPending
  refine ⟨by have := ho.core.fnEmitted; exact this ▸ h1, hf.keys h2, ?_, ?_⟩
  · intro e he
    rcases hf.mem he with he | he
    · exact h3 e he
    · exact he.2
  · intro e he hm
    rcases hf.mem he with he | he
    · exact h4 e he hm
    · exact absurd (hm ▸ he.2 ▸ he.1) hn

theorem PendingNote.mono {name : List Char} {p q : Footnote → Prop} {st : St}
    (h : PendingNote name p st) (hpq : ∀ f, p f → q f) : PendingNote name q st :=
  ⟨h.1, h.2.1, h.2.2.1, fun e he hm => hpq _ (h.2.2.2 e he hm)⟩

section
variable {cx : Cx} {name : List Char} {p : Footnote → Prop}

theorem Note.ok {u : Uses} {a b : St} (h : Note cx name p a) (ho : OkAt u a b) (hn : name ∉ u.fns) :
    Note cx name p b := by
  rcases h with ⟨f, h1, h2, h3⟩ | h
  · exact .inl ⟨f, h1, h2, h3.trans ho.out.isInfix⟩
  · exact .inr (h.ok ho hn)

theorem Note.view {a b : St} (h : Note cx name p a) (hv : refView b = refView a) : Note cx name p b := by
  simp only [refView, RefView.mk.injEq] at hv
  obtain ⟨h1, _, _, h4, h5, _⟩ := hv
  rw [Note, PendingNote, h1, h4, h5]
  exact h

theorem Note.push {a : St} (h : Note cx name p a) (s : List Char) : Note cx name p (a.push s) :=
  h.ok (okAt_push a s) (by simp)

theorem infix_groupText {α : Type} {out : List Char} {f : α → List Char} {xs : List α} {x : α} (h : x ∈ xs) :
    f x <:+: groupText out f xs := by
  rw [groupText, if_neg (by rintro rfl; simp at h)]
  refine List.IsInfix.trans ?_ (List.suffix_append _ _).isInfix
  obtain ⟨a, b, rfl⟩ := List.append_of_mem h
  refine ⟨(a.map f).flatten, (b.map f).flatten, ?_⟩
  simp

theorem Note.flushAll {a : St} (h : Note cx name p a) (b : Option Nat) : Note cx name p (flushAll cx b a) := by
  rw [Model.flushAll, flushFootnoteRefs_eq, flushReferences_eq, flushFootnotes_eq]
  rcases h with ⟨f, h1, h2, h3⟩ | ⟨h1, h2, h3, h4⟩
  · refine .inl ⟨f, h1, h2, h3.trans ?_⟩
    simp only [List.append_assoc]
    exact (List.prefix_append _ _).isInfix
  · by_cases hd : ∃ f ∈ footnotesOut b a, f.name = name
    · obtain ⟨f, hf, hn⟩ := hd
      obtain ⟨e, he, rfl, hm, _⟩ := dueFootnotes_mem.mp hf
      refine .inl ⟨e.2, hn, h4 e he (by rw [h3 e he, hn]), (infix_groupText (out := a.output) hf).trans ?_⟩
      simp only [List.append_assoc]
      exact ((List.prefix_append _ _).isInfix).trans (List.suffix_append _ _).isInfix
    · refine .inr ⟨?_, ?_, ?_, ?_⟩
      · simp only [List.mem_append, not_or]
        refine ⟨h1, fun hm => ?_⟩
        obtain ⟨f, hf, hn⟩ := List.mem_map.mp hm
        exact hd ⟨f, hf, hn⟩
      · obtain ⟨e, he, hn⟩ := List.mem_map.mp h2
        refine List.mem_map.mpr ⟨e, keptFootnotes_mem.mpr ⟨he, by rw [hn]; exact h1, ?_⟩, hn⟩
        cases hdue : dueBefore b e.2.referenceLine with
        | false => rfl
        | true =>
          exact absurd ⟨e.2, dueFootnotes_mem.mpr ⟨e, he, rfl, by rw [hn]; exact h1, hdue⟩, by rw [← h3 e he, hn]⟩ hd
      · intro e he
        exact h3 e (keptFootnotes_mem.mp he).1
      · intro e he
        exact h4 e (keptFootnotes_mem.mp he).1

theorem serTopBlock_note {k : Kid} (h : KidOk cx k) (hn : name ∉ (uses cx k.node).fns) (hb : isItemLike k.node = false)
    {st : St} (hg : Note cx name p st) : Note cx name p (serTopBlock cx k st) := by
  have ha : ∀ st, Note cx name p st → Note cx name p (k.act st) := fun st hg => hg.ok (h.act hb st) hn
  rw [serTopBlock]
  split
  · exact ha st hg
  · split
    · exact ha _ (hg.view rfl)
    · have h1 : Note cx name p (if st.skipMode = .nextBlock then { st with skipMode := .none } else st) := by
        split
        · exact hg.view rfl
        · exact hg
      generalize (if st.skipMode = .nextBlock then { st with skipMode := .none } else st) = st' at h1
      cases extractSource cx k.node.pos with
      | some source => exact h1.push _
      | none => exact ha _ h1

theorem serTopChild_note {k : Kid} (h : KidOk cx k)
    (hn : k.node.isFootnoteDefinition = false → name ∉ (uses cx k.node).fns) (hb : isItemLike k.node = false)
    (prev : Option Node) (tr : Bool) {st : St}
    (hg : Note cx name p st) : Note cx name p (serTopChild cx prev tr k st).1 := by
  have hf := hg.flushAll (some k.node.pos.startLine)
  rw [serTopChild]
  split
  · exact hg
  · split
    · exact hg
    · rename_i hnd
      have hn := hn (by simpa using hnd)
      split
      · rename_i d _
        cases d with
        | disableFile =>
          simp only []
          split
          · exact (hf.push _).push _
          · exact hf.push _
        | disableNextLine => exact (hf.push _).view rfl
        | disableNextSection => exact (hf.push _).view rfl
        | disable => exact (hf.push _).view rfl
        | enable => exact (hg.push _).view rfl
        | properNouns ns => exact (hg.push _).view rfl
        | commonNouns ns => exact (hg.push _).view rfl
      · simp only []
        split
        · exact serTopBlock_note h hn hb (hf.push _)
        · exact serTopBlock_note h hn hb (hg.push _)

theorem serTopLoop_note {kids : List Kid} (h : ∀ k ∈ kids, KidOk cx k)
    (hn : ∀ k ∈ kids, k.node.isFootnoteDefinition = false → name ∉ (uses cx k.node).fns) (hb : Blocks kids) :
    ∀ (prev : Option Node) (m : Nat) (st : St),
      Note cx name p st → Note cx name p (serTopLoop cx prev m kids st).1 := by
  induction kids with
  | nil => exact fun _ _ st hg => hg
  | cons k ks ih =>
    intro prev m st hg
    have h1 := serTopChild_note (h k (by simp)) (hn k (by simp)) (hb k (by simp)) prev (m == 0) hg
    rw [serTopLoop]
    split
    · exact h1
    · exact ih (fun k hk => h k (by simp [hk])) (fun k hk => hn k (by simp [hk])) (fun k hk => hb k (by simp [hk])) _ _ _ h1

end

/-! ### What a definition stores -/

/-- What is kept of the content of a footnote. -/
def noteText (cx : Cx) (cs : List Node) : List Char :=
  if hasBlocks cs then txts cx cs else (collectInlines cx cs).1

theorem footnoteBlocks_writes {cx : Cx} {kids : List Kid} (h : ∀ k ∈ kids, KidWrites cx k) :
    ∀ (first : Bool) (acc : List Char) (st : St) (t : List Char), VisIn t acc →
      VisIn (t ++ kidTxts cx kids) (footnoteBlocks first kids acc st).1 := by
  induction kids with
  | nil =>
    intro first acc st t ht
    rw [footnoteBlocks, kidTxts_nil, List.append_nil]
    exact ht.trans (within_of_visible (visible_trimEnd acc).symm)
  | cons k ks ih =>
    intro first acc st t ht
    rw [footnoteBlocks, kidTxts_cons, ← List.append_assoc]
    refine ih (fun k hk => h k (by simp [hk])) _ _ _ _ ?_
    refine VisIn.append (ht.right _) ?_
    obtain ⟨s, h1, h2⟩ := h k (by simp) { st with output := [] }
    rw [h1]
    exact h2.trans (within_of_visible (visible_trimEnd _).symm)

theorem serFootnoteDefinition_stores {cx : Cx} {kids : List Kid} (h : ∀ k ∈ kids, KidOk cx k) (hw : ∀ k ∈ kids, KidWrites cx k)
    (hb : Blocks kids) (hn : noteFreeList (kids.map (·.node)) = true) (name : List Char) (st : St) :
    ∃ f : Footnote, f.name = name ∧ VisIn (noteText cx (kids.map (·.node))) f.content ∧
      f.referenceLine = (st.footnotes.referenceLines.lookup name).getD 0 ∧
      (serFootnoteDefinition cx name kids st).footnotes.pending = mapInsert name f st.footnotes.pending ∧
      (serFootnoteDefinition cx name kids st).footnotes.emitted = st.footnotes.emitted := by
  rw [serFootnoteDefinition]
  generalize hs : ({ st with footnotes := { st.footnotes with
    collecting := true
    currentReferenceLine := (st.footnotes.referenceLines.lookup name).getD 0 } } : St) = s1
  have e1 : s1.footnotes.pending = st.footnotes.pending := by rw [← hs]
  have e2 : s1.footnotes.emitted = st.footnotes.emitted := by rw [← hs]
  have hu : (kidUses cx kids).fns = [] := by rw [kidUses]; exact usesList_noteFree cx _ hn
  simp only []
  by_cases hbl : hasBlocks (kids.map (·.node)) = true
  · simp only [hbl, if_true]
    have ho := footnoteBlocks_ok h hb true [] s1
    refine ⟨⟨name, (footnoteBlocks true kids [] s1).1, (st.footnotes.referenceLines.lookup name).getD 0, true⟩,
      rfl, ?_, rfl, ?_, ?_⟩
    · rw [noteText, if_pos hbl]
      have := footnoteBlocks_writes hw true [] s1 [] (.refl _)
      exact this
    · have := ho.core.fnPending.none (fun v hv => by rw [hu] at hv; simp at hv)
      rw [show (footnoteBlocks true kids [] s1).2.footnotes.pending = s1.footnotes.pending from this, e1]
    · exact (ho.core.fnEmitted).trans e2
  · rw [Bool.not_eq_true] at hbl
    simp only [hbl, Bool.false_eq_true, if_false]
    have ho := okAt_addReferences (collectInlines cx (kids.map (·.node))).2 s1
    refine ⟨⟨name, trim (collectInlines cx (kids.map (·.node))).1, (st.footnotes.referenceLines.lookup name).getD 0,
      false⟩, rfl, ?_, rfl, ?_, ?_⟩
    · rw [noteText, if_neg (by rw [hbl]; simp)]
      exact within_of_visible (visible_trim _).symm
    · have := ho.core.fnPending.none (fun v hv => by simp at hv)
      rw [show (addReferences s1 (collectInlines cx (kids.map (·.node))).2).footnotes.pending = s1.footnotes.pending from this, e1]
    · exact (ho.core.fnEmitted).trans e2

/-! ### Whole documents -/

/-- Nothing was written and no footnote of this name is pending. -/
def Unseen (name : List Char) (st : St) : Prop :=
  name ∉ st.footnotes.emitted ∧ (∀ e ∈ st.footnotes.pending, e.1 = e.2.name) ∧
    ∀ e ∈ st.footnotes.pending, e.1 ≠ name

theorem Unseen.ok {name : List Char} {u : Uses} {a b : St} (h : Unseen name a) (ho : OkAt u a b) (hn : name ∉ u.fns) :
    Unseen name b := by
  obtain ⟨h1, h2, h3⟩ := h
  have hf := ho.core.fnPending
  refine ⟨by have := ho.core.fnEmitted; exact this ▸ h1, ?_, ?_⟩
  · intro e he
    rcases hf.mem he with he | he
    · exact h2 e he
    · exact he.2
  · intro e he hm
    rcases hf.mem he with he | he
    · exact h3 e he hm
    · exact absurd (hm ▸ he.2 ▸ he.1) hn

theorem uses_def_fns (cx : Cx) (name : List Char) (q : Pos) (fs : List Node) (h : noteFreeList fs = true) :
    (uses cx (.mk (.footnoteDefinition name) q fs)).fns = [name] := by
  unfold uses
  have ih := usesList_noteFree cx fs h
  simp only [Uses.append_fns]
  split <;> simp [usesOf, ih]

theorem kidUses_defs (cx : Cx) (cs : List Node) (h : ∀ c ∈ cs, noteFreeList c.children = true) :
    (kidUses cx ((serKids cx cs).filter fun k => k.node.isFootnoteDefinition)).fns = fnNames cs := by
  induction cs with
  | nil => rfl
  | cons c cs ih =>
    have ih := ih fun c hc => h c (by simp [hc])
    have hc := h c (by simp)
    obtain ⟨v, q, fs⟩ := c
    rw [serKids, List.filter_cons]
    rw [fnNames] at ih ⊢
    by_cases hv : (Node.mk v q fs).isFootnoteDefinition = true
    · rw [if_pos hv, kidUses_cons, Uses.append_fns, ih]
      cases v <;> simp [Node.isFootnoteDefinition, Node.value] at hv
      rename_i name
      rw [uses_def_fns cx name q fs hc]
      rfl
    · rw [if_neg hv, ih]
      cases v <;> simp [Node.isFootnoteDefinition, Node.value] at hv <;> rfl

/-- After the definitions a footnote is pending, with the line recorded for it. -/
theorem defs_pending {cx : Cx} (hc : NoFormatter cx) {name : List Char} {q : Pos} {fs : List Node} :
    ∀ (cs : List Node), wellPlacedList cs = true → (∀ c ∈ cs, isItemLike c = false) → 
      (∀ c ∈ cs, noteFreeList c.children = true) → (fnNames cs).Nodup → .mk (.footnoteDefinition name) q fs ∈ cs →
      ∀ st, Unseen name st →
        PendingNote name (fun f => VisIn (noteText cx fs) f.content ∧
            ∀ l, st.footnotes.referenceLines.lookup name = some l → f.referenceLine = l)
          (runKids ((serKids cx cs).filter fun k => k.node.isFootnoteDefinition) st)
  | [], _, _, _, _, hm, _, _ => by simp at hm
  | c :: cs, hw, hb, hn, hnd, hm, st, hu => by
    rw [wellPlacedList, Bool.and_eq_true] at hw
    have hkids := serKids_ok cx cs hw.2
    have hnodes := serKids_nodes cx cs
    have hcn := hn c (by simp)
    obtain ⟨v, q', gs⟩ := c
    have hkc : KidOk cx ⟨.mk v q' gs, ser cx (.mk v q' gs) (nextIsBracket cs)⟩ := by
      have := serKids_ok cx (.mk v q' gs :: cs) (by rw [wellPlacedList, Bool.and_eq_true]; exact hw)
      exact this _ (by rw [serKids]; simp)
    rw [serKids, List.filter_cons]
    by_cases hv : (Node.mk v q' gs).isFootnoteDefinition = true
    · rw [if_pos hv, runKids]
      cases v <;> simp [Node.isFootnoteDefinition, Node.value] at hv
      rename_i name'
      have hl : fnNames (.mk (.footnoteDefinition name') q' gs :: cs) = name' :: fnNames cs := rfl
      rw [hl, List.nodup_cons] at hnd
      have hu1 := uses_def_fns cx name' q' gs hcn
      by_cases he : Node.mk (.footnoteDefinition name) q fs = .mk (.footnoteDefinition name') q' gs
      · cases he
        have hok := runKids_ok (kids := (serKids cx cs).filter fun k => k.node.isFootnoteDefinition) (filter_mem hkids)
          (by
            intro k hk
            have hm : k.node ∈ (serKids cx cs).map (·.node) := List.mem_map.mpr ⟨k, (List.mem_filter.mp hk).1, rfl⟩
            rw [hnodes] at hm
            exact hb _ (by simp [hm]))
          (ser cx (.mk (.footnoteDefinition name) q fs) (nextIsBracket cs) st)
        refine PendingNote.ok ?_ hok (by rw [kidUses_defs cx cs fun c hc => hn c (by simp [hc])]; exact hnd.1)
        have hwf : wellPlacedList fs = true ∧ ∀ c ∈ fs, isItemLike c = false := by
          have := hw.1
          simp only [wellPlaced, Bool.and_eq_true, List.all_eq_true] at this
          have h2 := this.1.2
          simp only [isListValue, Bool.false_or, List.all_eq_true] at h2
          exact ⟨this.2, fun c hc => by simpa using h2 c hc⟩
        have hfn := serKids_nodes cx fs
        obtain ⟨f, hf1, hf2, hfl, hf3, hf4⟩ := serFootnoteDefinition_stores (serKids_ok cx fs hwf.1) (serKids_writes hc fs hwf.1)
          (by
            intro k hk
            have hm : k.node ∈ (serKids cx fs).map (·.node) := List.mem_map.mpr ⟨k, hk, rfl⟩
            rw [hfn] at hm
            exact hwf.2 _ hm)
          (by rw [hfn]; exact hcn) name st
        rw [hfn] at hf2
        rw [ser, dispatch]
        obtain ⟨h1, h2, h3⟩ := hu
        refine ⟨by rw [hf4]; exact h1, ?_, ?_, ?_⟩
        · rw [hf3]; exact (mapInsert_key_mem _ _ _ _).mpr (.inl rfl)
        · intro e he
          rw [hf3] at he
          rcases mapInsert_mem he with rfl | he
          · exact hf1.symm
          · exact h2 e he
        · intro e he hm
          rw [hf3] at he
          rcases mapInsert_mem he with rfl | he
          · exact ⟨hf2, fun l hl => by rw [hfl, hl]; rfl⟩
          · exact absurd hm (h3 e he)
      · have hm' : .mk (.footnoteDefinition name) q fs ∈ cs := by
          rcases List.mem_cons.mp hm with h | h
          · exact absurd h he
          · exact h
        have hact := hkc.act (hb _ (by simp)) st
        refine (defs_pending hc cs hw.2 (fun c hc => hb c (by simp [hc])) (fun c hc => hn c (by simp [hc])) hnd.2 hm' _ ?_).mono
          fun f hf => ⟨hf.1, fun l hl => hf.2 l (hact.core.refLines name l hl)⟩
        refine hu.ok hact ?_
        rw [hu1, List.mem_singleton]
        rintro rfl
        refine hnd.1 ?_
        rw [fnNames, List.mem_filterMap]
        exact ⟨_, hm', rfl⟩
    · rw [if_neg hv]
      have hl : fnNames (.mk v q' gs :: cs) = fnNames cs := by
        rw [fnNames]
        cases v <;> simp [Node.isFootnoteDefinition, Node.value] at hv <;> rfl
      rw [hl] at hnd
      refine defs_pending (q := q) hc cs hw.2 (fun c hc => hb c (by simp [hc])) (fun c hc => hn c (by simp [hc])) hnd ?_ st hu
      rcases List.mem_cons.mp hm with h | h
      · cases h; exact absurd rfl hv
      · exact h

theorem defs_note {cx : Cx} (hc : NoFormatter cx) {name : List Char} {q : Pos} {fs : List Node}
    (cs : List Node) (hw : wellPlacedList cs = true) (hb : ∀ c ∈ cs, isItemLike c = false)
    (hn : ∀ c ∈ cs, noteFreeList c.children = true) (hnd : (fnNames cs).Nodup)
    (hm : .mk (.footnoteDefinition name) q fs ∈ cs) (st : St) (hu : Unseen name st) :
    Note cx name (fun f => VisIn (noteText cx fs) f.content)
      (runKids ((serKids cx cs).filter fun k => k.node.isFootnoteDefinition) st) :=
  .inr ((defs_pending hc cs hw hb hn hnd hm st hu).mono fun _ h => h.1)

theorem formatDoc_note {cx : Cx} (hc : NoFormatter cx) {p : Pos} {cs : List Node} (hw : wellPlacedDoc cs = true)
    (hd : ∀ n ∈ cs, ∀ d, n.directive = some d → turnsOff d = false)
    (hn : ∀ c ∈ cs, noteFreeList c.children = true) (hnd : (fnNames cs).Nodup)
    {name : List Char} {q : Pos} {fs : List Node} (hf : .mk (.footnoteDefinition name) q fs ∈ cs) :
    ∃ f : Footnote, f.name = name ∧ VisIn (noteText cx fs) f.content ∧
      footnoteText cx f <:+: (formatDoc cx (.mk .document p cs)).output := by
  have hwl : wellPlacedList cs = true := by
    rw [wellPlacedDoc, Bool.and_eq_true] at hw
    first | exact hw.2 | exact hw.1
  have hbl : ∀ c ∈ cs, isItemLike c = false := by
    intro c hc
    rw [wellPlacedDoc, Bool.and_eq_true] at hw
    simpa using List.all_eq_true.mp hw.1 _ hc
  have ha := serKids_writes hc cs hwl
  have h := serKids_ok cx cs hwl
  have hnodes := serKids_nodes cx cs
  have hmem : ∀ k ∈ serKids cx cs, k.node ∈ cs := by
    intro k hk
    rw [← hnodes]
    exact List.mem_map.mpr ⟨k, hk, rfl⟩
  have hb : Blocks (serKids cx cs) := fun k hk => hbl _ (hmem k hk)
  rw [formatDoc, ser, dispatch, serDocument, hnodes]
  generalize hs1 : ({ ({} : St) with warnings := ({} : St).warnings ++ undefinedWarnings cx cs } : St) = s1
  have hv := recordLines_view (footnoteRefLinesList cs) s1
  have hs : Unseen name (recordLines (footnoteRefLinesList cs) s1) := by
    have := hv.1
    simp only [refView, RefView.mk.injEq] at this
    obtain ⟨_, _, _, h4, h5, _⟩ := this
    rw [Unseen, h4, h5, ← hs1]
    simp
  have hdef := defs_note hc cs hwl hbl hn hnd hf _ hs
  have hok := runKids_ok (kids := (serKids cx cs).filter fun k => k.node.isFootnoteDefinition) (filter_mem h)
    (fun k hk => hb k (List.mem_filter.mp hk).1) (recordLines (footnoteRefLinesList cs) s1)
  have hsk : (serFootnoteDefinitions (serKids cx cs) (recordLines (footnoteRefLinesList cs) s1)).skipMode = .none := by
    have e1 := hok.core.skip
    have e2 := hv.2.1
    have e3 : s1.skipMode = .none := by rw [← hs1]
    exact (e1.trans e2).trans e3
  obtain ⟨_, h2⟩ := serTopLoop_writes ha h hb (fun k hk => hd _ (hmem k hk)) none (trailingStart cs) _ hsk
  rw [if_neg (by rw [h2]; simp)]
  have h3 : Note cx name (fun f => VisIn (noteText cx fs) f.content) (serTopLoop cx none (trailingStart cs) (serKids cx cs)
      (serFootnoteDefinitions (serKids cx cs) (recordLines (footnoteRefLinesList cs) s1))).1 := by
    refine serTopLoop_note h ?_ hb _ _ _ hdef
    intro k hk hkd
    rw [uses_noteFree cx k.node]
    · simp
    · have := hn _ (hmem k hk)
      obtain ⟨⟨v, q', gs⟩, act⟩ := k
      rw [noteFree, Bool.and_eq_true]
      refine ⟨?_, this⟩
      cases v <;> simp [Node.isFootnoteDefinition, Node.value] at hkd <;> rfl
  have h4 := h3.flushAll none
  have hpend := (flushAll_none_pending cx (serTopLoop cx none (trailingStart cs) (serKids cx cs)
      (serFootnoteDefinitions (serKids cx cs) (recordLines (footnoteRefLinesList cs) s1))).1).2.2
  rcases h4 with ⟨f, h5, h6, h7⟩ | ⟨_, h5, _⟩
  · refine ⟨f, h5, h6, h7.trans ?_⟩
    rw [outputTrailing]
    split
    · exact List.infix_refl _
    · rw [ensureBlankLine_eq]
      simp only [St.push, List.append_assoc]
      exact (List.prefix_append _ _).isInfix
  · rw [hpend] at h5
    simp at h5

/-- Without block content a footnote is its inline content. -/
theorem noteText_docText {cx : Cx} {keep : Char → Bool} {skip : Node → Bool} (hk : Counted cx.opts.punct keep)
    (hs : ∀ n, skip n = false → OwnText cx keep n) (hsc : cx.opts.headingSentenceCase = false) (p : Pos) (fs : List Node)
    (hf : NoteKept fs) : Keeps keep (docText skip (.mk .other p fs)) (noteText cx fs) := by
  rw [noteText]
  split
  · exact docText_keeps hk hs hsc (.mk .other p fs)
  · rename_i hb
    have hp : ∀ n ∈ fs, n.value = .paragraph := by
      rcases hf with ⟨n, hn, hv⟩ | hf
      · exfalso
        apply hb
        rw [hasBlocks, Bool.or_eq_true]
        refine .inl (List.any_eq_true.mpr ⟨n, hn, ?_⟩)
        obtain ⟨v, _, _⟩ := n
        cases v <;> simp_all [Node.value]
      · exact hf
    have e : docText skip (.mk .other p fs) = inlineTexts skip false fs := by
      rw [docText, blockText]
      clear hf hb
      induction fs with
      | nil => rfl
      | cons n fs ih =>
        have h1 := hp n (by simp)
        obtain ⟨v, q, gs⟩ := n
        rw [show v = .paragraph from h1, blockTexts, blockText, inlineTexts, inlineText, ih fun n hn => hp n (by simp [hn])]
        all_goals simp
    rw [e]
    exact keeps_collectInlines hk hs fs false

end Hongdown
