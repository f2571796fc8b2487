import Verif.Lemmas.NestedQuote

/-!
# Reading back documents with nested lists
-/

namespace Hongdown.Model
open Spec

/-! ### Shapes -/

theorem inItem_of_isPara {p : TreeBlock} (hp : p.isPara = true) : inItem p = true := by
  cases p with
  | quote _ _ _ => simp [TreeBlock.isPara] at hp
  | table _ _ _ => simp [TreeBlock.isPara] at hp
  | list _ _ _ _ => rfl
  | leaf _ b => cases b <;> simp [TreeBlock.isPara] at hp; rfl

theorem follows_inItem : ∀ (p : TreeBlock) (bs : List TreeBlock), inItem p = true → follows mayStandAfter (p :: bs) = true →
    (p :: bs).all inItem = true
  | p, [], hp, _ => by simp [hp]
  | p, b :: bs, hp, h => by
    rw [follows, Bool.and_eq_true] at h
    rw [List.all_cons, hp, follows_inItem b bs (mayStandAfter_inItem h.1) h.2]; rfl

mutual

theorem shaped_of_regular : ∀ b : TreeBlock, regular b = true → Well b → shaped b = true
  | .leaf _ _, _, _ => by rw [shaped]
  | .quote _ _ _, h, _ => by
    rw [regular, Bool.and_eq_true] at h
    rw [shaped]; exact h.1
  | .table _ _ rows, _, hw => by
    rw [Well] at hw
    rw [shaped, Bool.and_eq_true]
    refine ⟨by simpa using hw.2.1, ?_⟩
    rw [List.all_eq_true]
    intro c hc
    obtain ⟨r, hr, hc⟩ := List.mem_flatten.1 hc
    rcases (hw.2.2 r hr).2 c hc with h | h
    · simp [h]
    · simp [h.2]
  | .list _ _ _ items, h, hw => by
    rw [regular, Bool.and_eq_true] at h
    rw [Well] at hw
    rw [shaped]; exact shapedItems_of_regular items h.2 hw.2.2.2

theorem shapedItems_of_regular : ∀ items : List (List TreeBlock), regularItems items = true → WellItems items → shapedItems items = true
  | [], _, _ => by rw [shapedItems]
  | it :: its, h, hw => by
    rw [regularItems, Bool.and_eq_true, Bool.and_eq_true, Bool.and_eq_true] at h
    rw [WellItems] at hw
    have hi : it.all inItem = true := by
      cases it with
      | nil => rfl
      | cons p bs => exact follows_inItem p bs (inItem_of_isPara (by simpa using h.1.1.1)) h.1.1.2
    rw [shapedItems, hi, shapedBlocks_of_regular it h.1.2 hw.2.2.1, shapedItems_of_regular its h.2 hw.2.2.2]; rfl

theorem shapedBlocks_of_regular : ∀ bs : List TreeBlock, regularBlocks bs = true → WellBlocks bs → shapedBlocks bs = true
  | [], _, _ => by rw [shapedBlocks]
  | b :: bs, h, hw => by
    rw [regularBlocks, Bool.and_eq_true] at h
    rw [WellBlocks] at hw
    rw [shapedBlocks, shaped_of_regular b h.1 hw.1, shapedBlocks_of_regular bs h.2 hw.2]; rfl

end

/-! ### Blocks that are no lists -/

/-- The same state of both readers. -/
def toTree (g : Bool) : ReadMode → TreeMode
  | .none => .none g
  | .paragraph ls => .paragraph g ls
  | .code f ls => .code g f ls

/-- A code block is not closed by an empty line. -/
def ModeOpen : ReadMode → Prop
  | .code f _ => 0 < f.length
  | _ => True

theorem fence_length {l : List Char} {f : Fence} (h : lineKind l = .fence f) : 0 < f.length := by
  have h := (lineKind_isFence h).1
  unfold readOpening at h
  simp only at h
  split at h
  · cases h
  · split at h
    · cases h
    · split at h
      · rename_i h3
        cases h
        exact Nat.lt_of_lt_of_le (by decide) h3.2
      · cases h

theorem reads_map {m m' : TreeMode} {L L' : List (List Char)} {b : TreeBlock} {bs : List TreeBlock} (h : Reads m' L' bs)
    (hm : ∀ k, readTree (k + 1) m L = (readTree k m' L').map (b :: ·)) : Reads m L (b :: bs) := by
  obtain ⟨k, hk⟩ := h
  exact ⟨k + 1, by rw [hm, hk]; rfl⟩

theorem reads_step {m m' : TreeMode} {L L' : List (List Char)} {bs : List TreeBlock} (h : Reads m' L' bs)
    (hm : ∀ k, readTree (k + 1) m L = readTree k m' L') : Reads m L bs := by
  obtain ⟨k, hk⟩ := h
  exact ⟨k + 1, by rw [hm, hk]⟩

theorem readTree_of_lines :
    ∀ (X : List (List Char)) (m : ReadMode) (g : Bool) (cs : List CoreBlock), ModeOpen m → readLines m (X ++ [[]]) = some cs →
      ∃ gs : List Bool, gs.length = cs.length ∧ ∀ Y bs, Reads (.none true) Y bs →
        Reads (toTree g m) (X ++ [] :: Y) (List.zipWith TreeBlock.leaf gs cs ++ bs)
  | [], .none, g, cs, _, h => by
    rw [List.nil_append, readLines_blank, readLines, Option.some.injEq] at h
    subst h
    exact ⟨[], rfl, fun Y bs hY => reads_blank (g := g) lineKind_blank hY⟩
  | [], .paragraph ls, g, cs, _, h => by
    rw [List.nil_append, readLines] at h
    simp only [underline_nil, lineKind_blank, readLines, Option.map_some, Option.some.injEq] at h
    subst h
    refine ⟨[g], rfl, fun Y bs hY => ?_⟩
    exact reads_end (.inr ⟨[], Y, rfl, .inl rfl⟩) (reads_blank lineKind_blank hY)
  | [], .code f ls, g, cs, ho, h => by
    rw [List.nil_append, readLines] at h
    have hc : isClosing f.char f.length [] = false := by
      have : ¬ f.length = 0 := by simp only [ModeOpen] at ho; omega
      simp [isClosing, this]
    rw [hc] at h
    simp [readLines] at h
  | x :: X, .code f ls, g, cs, ho, h => by
    rw [List.cons_append, readLines] at h
    split at h
    · rename_i hc
      obtain ⟨cs', h1, rfl⟩ := map_some h
      obtain ⟨gs, h2, h3⟩ := readTree_of_lines X .none false cs' trivial h1
      exact ⟨g :: gs, by simp [h2], fun Y bs hY => reads_map (h3 Y bs hY) fun k => by
        show readTree (k + 1) (.code g f ls) (x :: (X ++ [] :: Y)) = _
        rw [readTree]; simp only [hc, if_true]; rfl⟩
    · rename_i hc
      obtain ⟨gs, h2, h3⟩ := readTree_of_lines X (.code f (ls ++ [x])) g cs ho h
      exact ⟨gs, h2, fun Y bs hY => reads_step (h3 Y bs hY) fun k => by rw [List.cons_append, toTree, readTree]; simp only [hc, if_false]; rfl⟩
  | x :: X, .none, g, cs, _, h => by
    rw [List.cons_append, readLines] at h
    split at h
    · rename_i hk
      obtain ⟨gs, h2, h3⟩ := readTree_of_lines X .none true cs trivial h
      exact ⟨gs, h2, fun Y bs hY => reads_blank hk (h3 Y bs hY)⟩
    · rename_i hk
      obtain ⟨cs', h1, rfl⟩ := map_some h
      obtain ⟨gs, h2, h3⟩ := readTree_of_lines X .none false cs' trivial h1
      exact ⟨g :: gs, by simp [h2], fun Y bs hY => reads_map (h3 Y bs hY) fun k => by rw [List.cons_append, toTree, readTree]; simp only [hk]; rfl⟩
    · rename_i hk
      obtain ⟨gs, h2, h3⟩ := readTree_of_lines X (.paragraph [x]) g cs trivial h
      exact ⟨gs, h2, fun Y bs hY => reads_step (h3 Y bs hY) fun k => by rw [List.cons_append, toTree, readTree]; simp only [hk]; rfl⟩
    · rename_i hk
      obtain ⟨cs', h1, rfl⟩ := map_some h
      obtain ⟨gs, h2, h3⟩ := readTree_of_lines X .none false cs' trivial h1
      exact ⟨g :: gs, by simp [h2], fun Y bs hY => reads_map (h3 Y bs hY) fun k => by rw [List.cons_append, toTree, readTree]; simp only [hk]; rfl⟩
    · rename_i f hk
      obtain ⟨gs, h2, h3⟩ := readTree_of_lines X (.code f []) g cs (fence_length hk) h
      exact ⟨gs, h2, fun Y bs hY => reads_step (h3 Y bs hY) fun k => by rw [List.cons_append, toTree, readTree]; simp only [hk]; rfl⟩
    · cases h
    · cases h
  | x :: X, .paragraph ls, g, cs, _, h => by
    rw [List.cons_append, readLines] at h
    split at h
    · rename_i level hu
      obtain ⟨cs', h1, rfl⟩ := map_some h
      obtain ⟨gs, h2, h3⟩ := readTree_of_lines X .none false cs' trivial h1
      exact ⟨g :: gs, by simp [h2], fun Y bs hY => reads_map (h3 Y bs hY) fun k => by
        show readTree (k + 1) (.paragraph g ls) (x :: (X ++ [] :: Y)) = _
        rw [readTree]; simp only [hu]; rfl⟩
    · rename_i hu
      split at h
      · rename_i hk
        obtain ⟨cs', h1, rfl⟩ := map_some h
        obtain ⟨gs, h2, h3⟩ := readTree_of_lines X .none true cs' trivial h1
        exact ⟨g :: gs, by simp [h2], fun Y bs hY => reads_map (reads_blank (g := false) hk (h3 Y bs hY)) fun k => by
          rw [List.cons_append, toTree, readTree]; simp only [hu, hk]⟩
      · rename_i hk
        split at h
        · cases h
        · rename_i hs
          obtain ⟨cs', h1, rfl⟩ := map_some h
          obtain ⟨gs, h2, h3⟩ := readTree_of_lines X .none false cs' trivial h1
          have h4 : ∀ Y bs, Reads (.none true) Y bs → Reads (.none false) (x :: (X ++ [] :: Y)) (.leaf false .rule :: (List.zipWith TreeBlock.leaf gs cs' ++ bs)) :=
            fun Y bs hY => reads_map (h3 Y bs hY) fun k => by rw [readTree]; simp only [hk]; rfl
          exact ⟨g :: false :: gs, by simp [h2], fun Y bs hY => reads_map (h4 Y bs hY) fun k => by
            rw [List.cons_append, toTree, readTree]; simp only [hu, hk]; rw [if_neg hs]⟩
      · rename_i hk
        obtain ⟨gs, h2, h3⟩ := readTree_of_lines X (.paragraph (ls ++ [x])) g cs trivial h
        exact ⟨gs, h2, fun Y bs hY => reads_step (h3 Y bs hY) fun k => by rw [List.cons_append, toTree, readTree]; simp only [hu, hk]; rfl⟩
      · rename_i level t hk
        obtain ⟨cs', h1, rfl⟩ := map_some h
        obtain ⟨gs, h2, h3⟩ := readTree_of_lines X .none false cs' trivial h1
        have h4 : ∀ Y bs, Reads (.none true) Y bs → Reads (.none false) (x :: (X ++ [] :: Y)) (.leaf false (.heading level [t]) :: (List.zipWith TreeBlock.leaf gs cs' ++ bs)) :=
          fun Y bs hY => reads_map (h3 Y bs hY) fun k => by rw [readTree]; simp only [hk]; rfl
        exact ⟨g :: false :: gs, by simp [h2], fun Y bs hY => reads_map (h4 Y bs hY) fun k => by
          rw [List.cons_append, toTree, readTree]; simp only [hu, hk]⟩
      · rename_i f hk
        obtain ⟨cs', h1, rfl⟩ := map_some h
        obtain ⟨gs, h2, h3⟩ := readTree_of_lines X (.code f []) false cs' (fence_length hk) h1
        have h4 : ∀ Y bs, Reads (.none true) Y bs → Reads (.none false) (x :: (X ++ [] :: Y)) (List.zipWith TreeBlock.leaf gs cs' ++ bs) :=
          fun Y bs hY => reads_step (h3 Y bs hY) fun k => by rw [readTree]; simp only [hk]; rfl
        exact ⟨g :: gs, by simp [h2], fun Y bs hY => reads_map (h4 Y bs hY) fun k => by
          rw [List.cons_append, toTree, readTree]; simp only [hu, hk]⟩
      · cases h
      · cases h

/-! ### Documents -/

theorem shift_zero (l : List Char) : shift 0 l = l := by
  by_cases h : l = []
  · rw [h, shift_nil]
  · rw [shift_of_ne h]; rfl

/-- What is known of the lines of a block of a document. -/
structure WrittenTop (cx : Cx) (g : Bool) (b b' : TreeBlock) (L : List (List Char)) : Prop where
  text : treeText cx 0 b = unlines L
  same : SameTree cx.opts.defaultLanguage b b'
  fit : FitWidth cx.width → FitsTree (FitsOrWord cx.width cx.opts.lineWidth) 0 0 b'
  keep : FitWidth cx.width → FitsTree (Fits cx.width cx.opts.lineWidth) 0 0 b → paragraphLines (leaves b') = paragraphLines (leaves b)
  level : coreLevel (topCore b') = coreLevel (topCore b)
  again : treeText cx 0 b' = treeText cx 0 b
  shaped : shaped b' = true
  chars : ∀ l ∈ L, '\n' ∉ l ∧ '\r' ∉ l ∧ '\x00' ∉ l
  tabs : NoTabs L
  last : ∀ l ∈ L.getLast?, l ≠ []
  head : ∃ l L', L = l :: L' ∧ blankLine l = false ∧ indentOf l < 4 ∧ l ≠ ['-', '-', '-'] ∧
    ∀ s, itemStart l = some s → ∃ g t items, b = .list g s.number t items
  reads : ∀ n rest bs, 0 < n → Reads (.none true) rest bs →
    (rest = [] ∨ ∃ l r, rest = l :: r ∧ blankLine l = false ∧ indentOf l < 4 ∧
      ∀ s g start t items, itemStart l = some s → b = .list g start t items → s.number.isSome ≠ start.isSome) →
    Reads (.none g) (L ++ (List.replicate n [] ++ rest)) (b' :: bs)

theorem sameDoc_cells (dflt : List Char) (rows : List (List (List Char))) (h : ∀ b ∈ cellBlocks rows, CoreValid b) :
    SameDoc dflt (cellBlocks rows) (cellBlocks rows) := by
  rw [cellBlocks] at h ⊢
  generalize rows.flatten.filter (· ≠ []) = cs at h ⊢
  induction cs with
  | nil => trivial
  | cons c cs ih =>
    obtain ⟨a, ha⟩ := (h (.paragraph [c]) (by simp)).2.2
    exact ⟨⟨rfl, a, a, ha, ha, rfl⟩, ih fun b hb => h b (by simp only [List.map_cons, List.mem_cons]; exact .inr hb)⟩

theorem strip_cell {c : List Char} (h : CellOk c) : strip c = c := by
  have hb : ∀ d : Char, rawChar d = true → isBlankChar d = false := by
    intro d hd
    have h1 : d ≠ ' ' := by rintro rfl; exact absurd hd (by decide)
    have h2 : d ≠ '\t' := by rintro rfl; exact absurd hd (by decide)
    simp [isBlankChar, h1, h2]
  rcases h with rfl | h
  · rfl
  · exact strip_of_ends (fun d hd => hb d (textLine_head h.1 d hd)) (fun d hd => hb d (textLine_last h.1 d hd))

theorem formatCell_char {w : List Char → Nat} {c : List Char} {n : Nat} {a : Align} {d : Char} (h : d ∈ formatCell w c n a) :
    d = ' ' ∨ d ∈ c := by
  cases a <;> simp [formatCell, spaces, List.mem_replicate] at h <;> grind

theorem rowLine_char {fs : List (List Char)} {d : Char} (h : d ∈ rowLine fs) : d = '|' ∨ d = ' ' ∨ ∃ f ∈ fs, d ∈ f := by
  rw [rowLine] at h
  rcases List.mem_cons.1 h with h | h
  · exact .inl h
  · obtain ⟨l, hl, hd⟩ := List.mem_flatten.1 h
    obtain ⟨f, hf, rfl⟩ := List.mem_map.1 hl
    simp at hd
    rcases hd with h | h | h | h
    · exact .inr (.inl h)
    · exact .inr (.inr ⟨f, hf, h⟩)
    · exact .inr (.inl h)
    · exact .inl h

/-- The lines of a table, and what is read from them. -/
theorem written_table (cx : Cx) (aligns : List Align) {rows : List (List (List Char))}
    (hw : aligns ≠ [] ∧ rows ≠ [] ∧ ∀ r ∈ rows, r.length = aligns.length ∧ ∀ c ∈ r, CellOk c) :
    ∃ L, tableText cx.width false aligns rows = unlines L ∧ (∀ t ∈ L, ∃ x, t = '|' :: x) ∧
      (∀ l ∈ L, '\n' ∉ l ∧ '\r' ∉ l ∧ '\x00' ∉ l) ∧ L ≠ [] ∧ readTable L = some (aligns, rows) := by
  obtain ⟨ha, h0, hr⟩ := hw
  cases rows with
  | nil => exact absurd rfl h0
  | cons header data =>
    obtain ⟨hlen, hspec⟩ := colWidths_spec cx.width aligns.length (header :: data)
    rw [tableText_eq]
    simp only [Bool.false_eq_true, if_false, List.nil_append]
    generalize colWidths cx.width aligns.length (header :: data) = W at hlen hspec ⊢
    have hchar : ∀ r ∈ header :: data, ∀ d, (d = '\n' ∨ d = '\r' ∨ d = '\x00') → d ∉ rowLine (r.mapIdx fun i cell =>
        formatCell cx.width cell (W.getD i 3) (aligns.getD i .none)) := by
      intro r hm d hd h
      have hd2 : d ≠ '|' ∧ d ≠ ' ' := by rcases hd with rfl | rfl | rfl <;> decide
      rcases rowLine_char h with h | h | ⟨f, hf, h⟩
      · exact hd2.1 h
      · exact hd2.2 h
      · obtain ⟨i, hi, rfl⟩ := List.mem_mapIdx.mp hf
        rcases formatCell_char h with h | h
        · exact hd2.2 h
        · rcases (hr r hm).2 _ (List.getElem_mem hi) with e | e
          · rw [e] at h; cases h
          · have := textLine_chars e.1
            rcases hd with rfl | rfl | rfl
            · exact this.1 h
            · exact this.2.1 h
            · exact this.2.2 h
    have hrow : ∀ r ∈ header :: data, tableRow (rowLine (r.mapIdx fun i cell =>
        formatCell cx.width cell (W.getD i 3) (aligns.getD i .none))) = some r := by
      intro r hm
      rw [tableRow, if_pos (by rfl), readRow_row]
      · congr 1
        apply List.ext_getElem?
        intro i
        simp only [List.getElem?_mapIdx, List.getElem?_map, Option.map_map]
        cases hc : r[i]? with
        | none => rfl
        | some c =>
          show some (strip (formatCell cx.width c _ _)) = some c
          rw [strip_formatCell, strip_cell ((hr r hm).2 c (List.mem_of_getElem? hc))]
      · intro f hf
        obtain ⟨i, hi, rfl⟩ := List.mem_mapIdx.mp hf
        apply barePipes_formatCell
        rcases (hr r hm).2 _ (List.getElem_mem hi) with e | e
        · rw [e]; rfl
        · exact barePipes_of_not_mem e.2 _
    have h3 : ∀ i : Nat, i < aligns.length → 3 ≤ W.getD i 3 := by
      intro i hi
      have hi' : i < W.length := by rw [hlen]; exact hi
      have : W[i]? = some (W.getD i 3) := by
        rw [List.getD_eq_getElem?_getD, List.getElem?_eq_getElem hi']; rfl
      exact (hspec i _ this).1
    have hdel : tableRow (rowLine (aligns.mapIdx fun i a => delimCell (W.getD i 3) a)) =
        some (aligns.mapIdx fun i a => delimCell (W.getD i 3) a) := by
      rw [tableRow, if_pos (by rfl), readRow_row]
      · congr 1
        apply List.ext_getElem?
        intro i
        simp only [List.getElem?_mapIdx, List.getElem?_map, Option.map_map]
        cases hc : aligns[i]? with
        | none => rfl
        | some a =>
          show some (strip (delimCell _ _)) = _
          rw [strip_delimCell (h3 i (List.getElem?_eq_some_iff.mp hc).1)]
          rfl
      · intro f hf
        obtain ⟨i, hi, rfl⟩ := List.mem_mapIdx.mp hf
        apply barePipes_of_not_mem
        intro h
        rcases delimCell_chars h with h | h <;> cases h
    refine ⟨_, rfl, ?_, ?_, by simp, ?_⟩
    · intro t ht
      simp only [List.mem_cons, List.mem_map] at ht
      rcases ht with rfl | rfl | ⟨r, _, rfl⟩ <;> exact ⟨_, rfl⟩
    · have hall : ∀ d, (d = '\n' ∨ d = '\r' ∨ d = '\x00') → ∀ l ∈ (rowLine (header.mapIdx fun i cell =>
          formatCell cx.width cell (W.getD i 3) (aligns.getD i .none))) :: rowLine (aligns.mapIdx fun i a => delimCell (W.getD i 3) a) ::
            data.map (fun r => rowLine (r.mapIdx fun i cell => formatCell cx.width cell (W.getD i 3) (aligns.getD i .none))), d ∉ l := by
        intro d hd l hl
        simp only [List.mem_cons, List.mem_map] at hl
        rcases hl with rfl | rfl | ⟨r, hm, rfl⟩
        · exact hchar header (by simp) d hd
        · intro h
          have hd2 : d ≠ '|' ∧ d ≠ ' ' ∧ d ≠ '-' ∧ d ≠ ':' := by rcases hd with rfl | rfl | rfl <;> decide
          rcases rowLine_char h with h | h | ⟨f, hf, h⟩
          · exact hd2.1 h
          · exact hd2.2.1 h
          · obtain ⟨i, hi, rfl⟩ := List.mem_mapIdx.mp hf
            rcases delimCell_chars h with h | h
            · exact hd2.2.2.1 h
            · exact hd2.2.2.2 h
        · exact hchar r (by simp [hm]) d hd
      intro l hl
      exact ⟨hall _ (.inl rfl) l hl, hall _ (.inr (.inl rfl)) l hl, hall _ (.inr (.inr rfl)) l hl⟩
    · have hmap : ∀ rs : List (List (List Char)), (∀ r ∈ rs, r ∈ header :: data) →
          (rs.map fun r => rowLine (r.mapIdx fun i cell => formatCell cx.width cell (W.getD i 3) (aligns.getD i .none))).mapM tableRow = some rs := by
        intro rs
        induction rs with
        | nil => intro _; rfl
        | cons r rs ih =>
          intro h
          rw [List.map_cons, List.mapM_cons, hrow r (h r (by simp)), ih (fun x hx => h x (by simp [hx]))]
          rfl
      have htake := (takeWhile_rows (ts := rowLine (header.mapIdx fun i cell =>
          formatCell cx.width cell (W.getD i 3) (aligns.getD i .none)) :: rowLine (aligns.mapIdx fun i a => delimCell (W.getD i 3) a) ::
            data.map (fun r => rowLine (r.mapIdx fun i cell => formatCell cx.width cell (W.getD i 3) (aligns.getD i .none)))) (L := []) (by
          intro t ht
          simp only [List.mem_cons, List.mem_map] at ht
          rcases ht with rfl | rfl | ⟨r, _, rfl⟩ <;> exact blankLine_row _) (by simp)).1
      rw [List.append_nil] at htake
      rw [readTable, htake, List.mapM_cons, List.mapM_cons, hrow header (by simp), hdel, hmap data (by intro r hm; simp [hm])]
      have hd : (aligns.mapIdx fun i a => delimCell (W.getD i 3) a).mapM readDelim = some aligns := by
        have : ∀ (as : List Align) (f : Nat → Nat), (∀ i, i < as.length → 3 ≤ f i) →
            (as.mapIdx fun i a => delimCell (f i) a).mapM readDelim = some as := by
          intro as
          induction as with
          | nil => intro f _; rfl
          | cons a as ih =>
            intro f hf
            rw [List.mapIdx_cons, List.mapM_cons, readDelim_delimCell (hf 0 (by simp)), ih (fun i => f (i + 1)) (fun i hi => hf (i + 1) (by simpa using hi))]
            rfl
        exact this aligns (fun i => W.getD i 3) h3
      simp only [Option.bind_eq_bind, Option.bind_some, Option.pure_def, hd]
      rw [if_pos ⟨ha, hr⟩]

theorem written_top {cx : Cx} (ho : NestedOptions cx.opts) (g : Bool) {b : TreeBlock} (hl : ∀ l ∈ leaves b, LeafGood cx l)
    (hr : regular b = true) (hw : Well b) (hdef : b.isDefinition = false) : ∃ b' L, WrittenTop cx g b b' L := by
  cases b with
  | leaf g0 b =>
    have hb := hl b (by simp [leaves])
    obtain ⟨b', L, h⟩ := written ho.toCoreOptions hb.valid hdef hb.fits
    obtain ⟨x, L', hL⟩ := List.exists_cons_of_ne_nil h.ne
    have hx := blockStart_line (h.start x (by rw [hL]; rfl))
    have hone : readLines .none (L ++ [[]]) = some [b'] := by rw [h.reads]; rfl
    obtain ⟨gs, h2, h3⟩ := readTree_of_lines L .none g [b'] trivial hone
    refine ⟨.leaf (gs.headD false) b', L, h.text, ?_, fun hwo => ?_, fun hwo hfit => ?_, h.level, h.again, ?_, h.chars, h.tabs hb.tabs, h.last, ⟨x, L', hL, hx.2.1, hx.2.2, ?_, ?_⟩, ?_⟩
    · rw [SameTree]; exact h.same
    · have := h.fit hwo.toWidthOk
      cases b' <;> simp only [FitsTree] at this ⊢ <;> exact this
    · rw [leaves, leaves]
      refine h.keep hwo.toWidthOk ?_
      cases b <;> simp only [FitsTree] at hfit ⊢ <;> exact hfit
    · rw [shaped]
    · have := h.first
      rw [hL] at this
      simpa using this
    · intro s hs
      rw [hx.1] at hs; cases hs
    · intro n rest bs hn hrs _
      obtain ⟨j, rfl⟩ : ∃ j, n = j + 1 := ⟨n - 1, by omega⟩
      obtain ⟨g1, rfl⟩ : ∃ g1, gs = [g1] := by
        match gs, h2 with
        | [g1], _ => exact ⟨g1, rfl⟩
      exact h3 _ bs (reads_blanks j (by simpa using hrs))
  | quote g0 a bs =>
    rw [leaves] at hl
    rw [regular, Bool.and_eq_true] at hr
    rw [Well] at hw
    obtain ⟨bs', M, h⟩ := written_quote ho.toCoreOptions bs (by simpa using hr.1) hl hr.2
    have hne : alertLines a ++ M ≠ [] := by simp [h.ne]
    have hlines : ∀ t ∈ alertLines a, '\n' ∉ t ∧ '\r' ∉ t ∧ '\x00' ∉ t ∧ '\t' ∉ t := by
      intro t ht
      cases a with
      | none => cases ht
      | some a =>
        obtain ⟨kind, blank⟩ := a
        simp only [alertLines, List.mem_cons] at ht
        rcases ht with rfl | ht
        · cases kind <;> decide
        · cases blank <;> simp at ht
          subst ht; simp
    have htext : ∀ cs, alertText a ++ quoteText cx cs = unlines ((alertLines a).map marked) ++ quoteText cx cs := by
      intro cs
      congr 1
      cases a with
      | none => rfl
      | some a =>
        obtain ⟨kind, blank⟩ := a
        cases blank <;> simp [alertText, alertLines, unlines, marked]
    have htabs : ∀ t ∈ alertLines a ++ M, blankLine t = true → '\t' ∉ t := by
      intro t ht
      rcases List.mem_append.1 ht with ht | ht
      · exact fun _ => (hlines t ht).2.2.2
      · exact h.tabs t ht
    have hbs : bs' ≠ [] := by
      rintro rfl
      cases bs with
      | nil => simp at hr
      | cons _ _ => exact h.same
    have hreads := readLines_trailing M .none bs' (by simp) h.reads
    have hread : ∀ L : List (List Char), (∀ l ∈ L.head?, l = []) → readQuote ((alertLines a ++ M).map marked ++ L) = some (a, bs') := by
      intro L hL
      obtain ⟨x, M', e⟩ := List.exists_cons_of_ne_nil h.ne
      have hx := h.first x (by rw [e]; rfl)
      cases a with
      | none =>
        have hal : alertLike bs' = false := by rw [h.alert]; exact hw.2 rfl
        have ht := h.tabs
        rw [e] at hreads ht
        rw [e]
        exact readQuote_plain ht hreads (by rw [hx.2, hal]) hal hL
      | some a => exact readQuote_alert h.tabs hreads (by rw [e]; exact hx.1) hL
    generalize hLdef : alertLines a ++ M = L at hne htabs hread
    obtain ⟨x, L', hL⟩ := List.exists_cons_of_ne_nil hne
    obtain ⟨y, hy⟩ := marked_head x
    have hmem : ∀ l ∈ L.map marked, ∃ t ∈ L, l = marked t := by
      intro l hl
      obtain ⟨t, ht, rfl⟩ := List.mem_map.1 hl
      exact ⟨t, ht, rfl⟩
    refine ⟨.quote g a bs', L.map marked, ?_, ?_, fun hwo => ?_, fun hwo hfit => ?_, rfl, ?_, ?_, ?_, ?_, ?_,
      ⟨marked x, L'.map marked, by rw [hL]; rfl, ?_, ?_, ?_, ?_⟩, ?_⟩
    · rw [treeText, htext, h.text, ← hLdef]
      simp [unlines]
    · rw [SameTree]; exact ⟨rfl, h.same⟩
    · rw [FitsTree]; exact h.fit hwo
    · rw [FitsTree] at hfit
      rw [leaves, leaves]; exact h.keep hwo hfit
    · rw [treeText, treeText, h.again]
    · rw [shaped]; simpa using hbs
    · intro l hl
      obtain ⟨t, ht, rfl⟩ := hmem l hl
      have : '\n' ∉ t ∧ '\r' ∉ t ∧ '\x00' ∉ t := by
        rw [← hLdef] at ht
        rcases List.mem_append.1 ht with ht | ht
        · exact ⟨(hlines t ht).1, (hlines t ht).2.1, (hlines t ht).2.2.1⟩
        · exact h.chars t ht
      unfold marked
      split <;> simp [this]
    · intro l hl hb
      obtain ⟨t, ht, rfl⟩ := hmem l hl
      obtain ⟨z, hz⟩ := marked_head t
      rw [hz] at hb
      simp [blankChar] at hb
    · rintro l hl rfl
      obtain ⟨t, ht, e⟩ := hmem _ (List.mem_of_getLast? hl)
      obtain ⟨z, hz⟩ := marked_head t
      rw [hz] at e; cases e
    · rw [hy]; rfl
    · rw [hy]; simp [indentOf]
    · rw [hy]; simp
    · intro s hs
      rw [hy, itemStart_quote] at hs
      cases hs
    · intro n rest cs hn hrs _
      have hblank : ∀ l ∈ (List.replicate n [] ++ rest).head?, l = [] := by
        obtain ⟨j, rfl⟩ : ∃ j, n = j + 1 := ⟨n - 1, by omega⟩
        simp [List.replicate_succ]
      exact reads_quote hne htabs (hread _ hblank) hblank (reads_blanks n (by simpa [hn] using hrs))
  | table g0 aligns rows =>
    rw [Well] at hw
    obtain ⟨L, htext, h1, h2, h0, hread⟩ := written_table cx aligns hw
    obtain ⟨x, L', hL⟩ := List.exists_cons_of_ne_nil h0
    obtain ⟨y, hy⟩ := h1 x (by rw [hL]; simp)
    refine ⟨.table g aligns rows, L, ?_, ?_, fun _ => ?_, fun _ _ => rfl, rfl, ?_, ?_, h2, ?_, ?_,
      ⟨x, L', hL, ?_, ?_, ?_, ?_⟩, ?_⟩
    · rw [treeText, htext]
    · rw [SameTree]; exact ⟨rfl, rfl, sameDoc_cells _ _ fun b hb => (hl b (by rw [leaves]; exact hb)).valid⟩
    · rw [FitsTree]; trivial
    · rw [treeText, treeText]
    · exact shaped_of_regular _ (by rw [regular]) (by rw [Well]; exact hw)
    · intro l hl hb
      obtain ⟨z, rfl⟩ := h1 l hl
      simp [blankChar] at hb
    · rintro l hl rfl
      obtain ⟨z, e⟩ := h1 _ (List.mem_of_getLast? hl)
      cases e
    · rw [hy]; exact blankLine_row y
    · rw [hy]; simp [indentOf]
    · rw [hy]; simp
    · intro s hs
      rw [hy, itemStart_row] at hs
      cases hs
    · intro n rest cs hn hrs _
      refine reads_table h1 hread ?_ ?_
      · obtain ⟨j, rfl⟩ : ∃ j, n = j + 1 := ⟨n - 1, by omega⟩
        simp [List.replicate_succ]
      · exact reads_blanks n (by simpa [hn] using hrs)
  | list g0 start t items =>
    rw [leaves] at hl
    obtain ⟨b', L, h⟩ := written_tree ho (.list g start t items) 0 (.inl rfl) (by rw [leaves]; exact hl) rfl
      (by rw [regular] at hr ⊢; exact hr) (by rw [Well] at hw ⊢; exact hw)
    obtain ⟨x, L', hL⟩ := List.exists_cons_of_ne_nil h.ne
    obtain ⟨s, hs, hn⟩ := h.list _ _ _ _ rfl x (by rw [hL]; rfl)
    have hcol := itemStart_column hs.start
    refine ⟨b', L, ?_, ?_, h.fit, fun hwo hfit => ?_, ?_, ?_, h.shaped, h.chars, h.tabs, ?_, ⟨x, L', hL, hcol.1, hcol.2, ?_, ?_⟩, ?_⟩
    · have := h.text
      simp only [closed, TreeBlock.isList, ends, Bool.true_or, if_true, List.nil_append, List.append_nil, Nat.mul_zero] at this
      rw [show shift 0 = id from funext shift_zero, List.map_id] at this
      rw [← this, treeText, treeText]
    · have := h.same
      cases b' with
      | leaf _ _ => have := h.isList; simp [TreeBlock.isList] at this
      | quote _ _ _ => have := h.isList; simp [TreeBlock.isList] at this
      | table _ _ _ => have := h.isList; simp [TreeBlock.isList] at this
      | list _ _ _ _ => rw [SameTree] at this ⊢; exact this
    · rw [FitsTree] at hfit
      rw [h.keep hwo (by rw [FitsTree]; exact hfit), leaves, leaves]
    · cases b' with
      | leaf _ _ => have := h.isList; simp [TreeBlock.isList] at this
      | quote _ _ _ => have := h.isList; simp [TreeBlock.isList] at this
      | table _ _ _ => have := h.isList; simp [TreeBlock.isList] at this
      | list _ _ _ _ => rfl
    · have := h.again
      rw [this, treeText, treeText]
    · rintro l hm rfl
      exact absurd (h.last _ hm) (by decide)
    · rintro rfl
      have := hs.start
      exact absurd this (by rw [show itemStart ['-', '-', '-'] = none by decide +kernel]; simp)
    · intro s' hs'
      rw [hs.start] at hs'
      cases hs'
      exact ⟨g0, t, items, by rw [hn]⟩
    · intro n rest bs hn0 hrs ha
      refine h.reads n rest bs (by rw [decide_eq_true hn0]; exact hrs) ?_
      rcases ha with ha | ⟨l, r, ha, h1, h2, h3⟩
      · exact .inl ha
      · exact .inr ⟨l, r, ha, h1, h2, hn0, fun s' hs' => h3 s' _ _ _ _ hs' rfl⟩

/-- What is written for a block of a document ends with one line break. -/
theorem WrittenTop.ends {cx : Cx} {g : Bool} {b b' : TreeBlock} {L : List (List Char)} (h : WrittenTop cx g b b' L) : EndsOnce (treeText cx 0 b) := by
  rw [h.text]
  rcases List.eq_nil_or_concat L with e | ⟨M, l, e⟩
  · obtain ⟨l, L', hL, _⟩ := h.head
    rw [e] at hL; cases hL
  · subst e
    have h0 : l ≠ [] := h.last l (by simp)
    rcases List.eq_nil_or_concat l with e | ⟨x, c, rfl⟩
    · exact absurd e h0
    · have hc : '\n' ∉ x.concat c := (h.chars _ (by simp)).1
      refine ⟨unlines M ++ x, c, by simp [unlines], ?_⟩
      rintro rfl
      exact hc (by simp)

theorem sameBlock_isDefinition {dflt : List Char} {b c : CoreBlock} (h : SameBlock dflt b c) : c.isDefinition = b.isDefinition := by
  cases b <;> cases c <;> first | rfl | exact absurd h id

theorem sameTree_isDefinition {dflt : List Char} {b c : TreeBlock} (h : SameTree dflt b c) : c.isDefinition = b.isDefinition := by
  cases b <;> cases c <;> first | rfl | (rw [SameTree] at h; exact sameBlock_isDefinition h) | simp [SameTree] at h

/-! ### Definitions -/

theorem link_plainLabel {t : List Char} (h : LinkOk t) : plainLabel t = true := by
  have hne := link_ne_nil h
  rw [plainLabel, Bool.and_eq_true]
  refine ⟨?_, ?_⟩
  · cases t with
    | nil => exact absurd rfl hne
    | cons c t =>
      have hc : plainChar c = true := by
        rcases link_char h (List.mem_cons_self) with h1 | h1
        · exact h1
        · exact absurd (by rw [h1]; rfl) h.2.2.1
      simp [plainChar_not_ws hc]
  · rw [List.all_eq_true]
    intro c hc
    have hn : ∀ d : Char, plainChar d = false → d ≠ ' ' → c ≠ d := fun d h1 h2 e => link_not_mem h d h1 h2 (e ▸ hc)
    simp only [Bool.and_eq_true, decide_eq_true_eq]
    exact ⟨⟨⟨⟨hn _ (by decide) (by decide), hn _ (by decide) (by decide)⟩, hn _ (by decide) (by decide)⟩, hn _ (by decide) (by decide)⟩, hn _ (by decide) (by decide)⟩

/-- The line that is written for a definition. -/
def definitionText (label : List Char) (target : List Char × List Char) : List Char :=
  ['['] ++ label ++ [']', ':', ' '] ++ target.1 ++ titlePart target.2

theorem definition_line {label : List Char} {target : List Char × List Char} (hl : LinkOk label) (ht : TargetOk target) :
    referenceText ⟨label, target.1, target.2⟩ = definitionText label target ++ ['\n'] ∧
    lineKind (definitionText label target) = .definition label target ∧
    '\n' ∉ definitionText label target ∧ '\r' ∉ definitionText label target ∧ '\x00' ∉ definitionText label target := by
  obtain ⟨url, title⟩ := target
  obtain ⟨hu, htt, _, hc⟩ := ht
  have hs : softToSpace label = label := softToSpace_id fun c hc e => link_not_mem hl '\x00' (by decide) (by decide) (e ▸ hc)
  have etext : referenceText ⟨label, url, title⟩ = definitionText label (url, title) ++ ['\n'] := by
    rw [referenceText, hs]; rfl
  have hread : readDefinition (definitionText label (url, title)) = some (label, url, title) := by
    obtain ⟨line, e1, e2⟩ := readDefinition_plain (r := ⟨label, url, title⟩) (link_plainLabel hl) hu htt
    rw [etext] at e1
    rw [List.append_cancel_right e1]; exact e2
  have hnone : ∀ c, (c = '\n' ∨ c = '\r' ∨ c = '\x00') → c ∉ definitionText label (url, title) := by
    intro c h3 hm
    have hlab : c ∉ label := by rcases h3 with rfl | rfl | rfl <;> exact link_not_mem hl _ (by decide) (by decide)
    have hurl : c ∉ url := by
      intro hm
      simp only [plainUrl, Bool.and_eq_true] at hu
      have := List.all_eq_true.1 hu.1.2 c hm
      rcases h3 with rfl | rfl | rfl <;> revert this <;> decide
    have htit : c ∉ title := by
      intro hm
      have h1 := hc c hm
      have h2 := List.all_eq_true.1 htt c hm
      simp only [Bool.and_eq_true, decide_eq_true_eq] at h2
      rcases h3 with h | h | h
      · exact h2.2 h
      · exact h1.2.1 h
      · exact h1.2.2 h
    have hlit : c ∉ ['[', ']', ':', ' ', '"'] := by rcases h3 with rfl | rfl | rfl <;> decide
    simp only [definitionText, titlePart, List.mem_append] at hm
    rcases hm with (((hm | hm) | hm) | hm) | hm
    · exact hlit (by simp at hm; simp [hm])
    · exact hlab hm
    · exact hlit (by simp at hm; rcases hm with h | h | h <;> simp [h])
    · exact hurl hm
    · split at hm
      · cases hm
      · simp only [List.mem_append] at hm
        rcases hm with (hm | hm) | hm
        · exact hlit (by simp at hm; rcases hm with h | h <;> simp [h])
        · exact htit hm
        · exact hlit (by simp at hm; simp [hm])
  refine ⟨etext, ?_, hnone _ (.inl rfl), hnone _ (.inr (.inl rfl)), hnone _ (.inr (.inr rfl))⟩
  obtain ⟨r, hr⟩ : ∃ r, definitionText label (url, title) = '[' :: r := ⟨_, rfl⟩
  have hmem : '[' ∈ definitionText label (url, title) := by rw [hr]; simp
  have h1 : (definitionText label (url, title)).all blankChar = false := not_blank_line hmem (by decide)
  have h2 : isRule (definitionText label (url, title)) = false := not_rule_line hmem (by decide) (by decide)
  have h3 : ¬ TextLine (definitionText label (url, title)) := by
    intro h
    obtain ⟨w, hw, hi⟩ := infix_word (x := [']', ':']) (by decide) (by decide) (splitOn ' ' (definitionText label (url, title)))
      (by rw [join_splitOn]; exact ⟨['['] ++ label, [' '] ++ url ++ titlePart title, by simp [definitionText]⟩)
    exact (h w hw).2.2.2.2.1 hi
  have h4 : atxLine (definitionText label (url, title)) = none := by rw [hr]; simp [atxLine]
  have h5 : readOpening (definitionText label (url, title)) = none := by
    rw [hr, readOpening]
    simp
  have h6 : definitionLine (definitionText label (url, title)) = some (label, (url, title)) := by
    rw [definitionLine, hread]
    simp only
    rw [if_pos ⟨hl, hu, htt, by assumption, hc⟩]
  rw [lineKind, if_neg (by rw [h1]; simp), if_neg (by rw [h2]; simp), if_neg h3, h4]
  simp only [h5, h6]

/-! ### Lists of blocks that are written alike -/

/-- The blocks are written alike, and have the same references. -/
structure Alike (cx : Cx) (b b' : TreeBlock) : Prop where
  definition : b'.isDefinition = b.isDefinition
  level : coreLevel (topCore b') = coreLevel (topCore b)
  text : treeText cx 0 b' = treeText cx 0 b

def AllAlike (cx : Cx) : List TreeBlock → List TreeBlock → Prop
  | [], [] => True
  | b :: bs, b' :: bs' => Alike cx b b' ∧ AllAlike cx bs bs'
  | _, _ => False

theorem alike_refl (cx : Cx) (b : TreeBlock) : Alike cx b b := ⟨rfl, rfl, rfl⟩

theorem allAlike_shown {cx : Cx} : ∀ {bs bs' : List TreeBlock}, AllAlike cx bs bs' → AllAlike cx (shownTrees bs) (shownTrees bs')
  | [], [], _ => trivial
  | [], _ :: _, h => absurd h id
  | _ :: _, [], h => absurd h id
  | b :: bs, b' :: bs', h => by
    have ih := allAlike_shown h.2
    have e := h.1.definition
    rw [shownTrees_cons, shownTrees_cons, e]
    cases b.isDefinition with
    | true => simpa using ih
    | false => exact ⟨h.1, ih⟩

theorem allAlike_append {cx : Cx} : ∀ (ds : List TreeBlock) {bs bs' : List TreeBlock}, AllAlike cx bs bs' → AllAlike cx (ds ++ bs) (ds ++ bs')
  | [], _, _, h => h
  | d :: ds, _, _, h => ⟨alike_refl cx d, allAlike_append ds h⟩

theorem treeDoc_alike {cx : Cx} : ∀ {bs bs' : List TreeBlock} (prev prev' : Option TreeBlock) (after : Bool), AllAlike cx bs bs' →
    prev'.map (fun b => coreLevel (topCore b)) = prev.map (fun b => coreLevel (topCore b)) →
    treeDoc cx prev' after bs' = treeDoc cx prev after bs
  | [], [], _, _, _, _, _ => rfl
  | [], _ :: _, _, _, _, h, _ => absurd h id
  | _ :: _, [], _, _, _, h, _ => absurd h id
  | b :: bs, b' :: bs', prev, prev', after, h, hp => by
    rw [treeDoc, treeDoc, h.1.definition, h.1.text]
    split
    · rw [treeDoc_alike prev prev' true h.2 hp]
    · rw [treeDoc_alike (some b) (some b') false h.2 (by simp [h.1.level])]
      have : coreGap (prev'.map topCore) (topCore b') = coreGap (prev.map topCore) (topCore b) := by
        cases prev with
        | none =>
          cases prev' with
          | none => rfl
          | some _ => simp at hp
        | some p =>
          cases prev' with
          | none => simp at hp
          | some p' => exact coreGap_level (by simpa using hp) h.1.level
      rw [this]

/-! ### The rest of a document -/

/-- What is known of the lines of the rest of a document. -/
structure WrittenRest (cx : Cx) (prev : Option TreeBlock) (after : Bool) (bs bs' : List TreeBlock) (X : List (List Char)) : Prop where
  text : treeDoc cx prev after bs = unlines X
  same : SameBlocks cx.opts.defaultLanguage bs bs'
  fit : FitWidth cx.width → FitsBlocks (FitsOrWord cx.width cx.opts.lineWidth) 0 0 bs'
  keep : FitWidth cx.width → FitsBlocks (Fits cx.width cx.opts.lineWidth) 0 0 bs → paragraphLines (blocksLeaves bs') = paragraphLines (blocksLeaves bs)
  alike : AllAlike cx bs bs'
  shaped : shapedBlocks bs' = true
  chars : ∀ l ∈ X, '\n' ∉ l ∧ '\r' ∉ l ∧ '\x00' ∉ l
  tabs : NoTabs X
  first : prev = none → (X ++ [[]]).head? ≠ some ['-', '-', '-']
  reads : ∃ n rest, X ++ [[]] = List.replicate n [] ++ rest ∧
    (prev.isSome = true → 0 < n ∨ (after = true ∧ afterDefinition rest = true)) ∧ Reads (.none (decide (0 < n))) rest bs' ∧
    (rest = [] ∨ ∃ l r, rest = l :: r ∧ blankLine l = false ∧ indentOf l < 4 ∧
      ∀ s g start t items, itemStart l = some s → prev = some (.list g start t items) → s.number.isSome ≠ start.isSome)

theorem written_rest {cx : Cx} (ho : NestedOptions cx.opts) : ∀ (bs : List TreeBlock) (prev : Option TreeBlock) (after : Bool),
    (prev.isSome = true ∨ ∀ b ∈ bs.head?, b.isDefinition = false) →
    (∀ l ∈ blocksLeaves bs, LeafGood cx l) → regularBlocks bs = true → WellBlocks bs →
    follows notBothLists (prev.toList ++ shownTrees bs) = true → ∃ bs' X, WrittenRest cx prev after bs bs' X
  | [], prev, after, _, _, _, _, _ => by
    refine ⟨[], [], rfl, ?_, fun _ => by rw [FitsBlocks]; trivial, fun _ _ => rfl, trivial, ?_, by simp, by simp [NoTabs], by simp, 1, [], rfl,
      fun _ => .inl (by decide), reads_nil _, .inl rfl⟩
    · rw [SameBlocks]; trivial
    · rw [shapedBlocks]
  | b :: bs, prev, after, hstart, hl, hr, hw, hf => by
    rw [blocksLeaves] at hl
    rw [regularBlocks, Bool.and_eq_true] at hr
    rw [WellBlocks] at hw
    rw [shownTrees_cons] at hf
    by_cases hdef : b.isDefinition = true
    · -- a definition
      obtain ⟨g, label, target, rfl⟩ : ∃ g label target, b = .leaf g (.definition label target) := by
        cases b with
        | quote _ _ _ => cases hdef
        | table _ _ _ => cases hdef
        | list _ _ _ _ => cases hdef
        | leaf g b =>
          cases b with
          | definition label target => exact ⟨g, label, target, rfl⟩
          | _ => cases hdef
      have hps : prev.isSome = true := by
        rcases hstart with h | h
        · exact h
        · have := h _ rfl
          rw [hdef] at this; cases this
      rw [hdef] at hf
      obtain ⟨bs', X, hX⟩ := written_rest ho bs prev true (.inl hps) (fun l hm => hl l (by simp [hm])) hr.2 hw.2 (by simpa using hf)
      obtain ⟨hlab, htar⟩ := (hl (.definition label target) (by simp [leaves])).valid
      obtain ⟨etext, hkind, hc⟩ := definition_line hlab htar
      obtain ⟨m, rest, he, hm, hrs, _⟩ := hX.reads
      have hafter : afterDefinition (X ++ [[]]) = true := by
        rcases hm hps with h | h
        · obtain ⟨k, rfl⟩ : ∃ k, m = k + 1 := ⟨m - 1, by omega⟩
          rw [he]; rfl
        · cases m with
          | zero => rw [he]; exact h.2
          | succ k => rw [he]; rfl
      have hstartline : BlockStart (definitionText label target) := by
        intro k hk
        rw [hkind] at hk
        rw [← hk]; simp
      have hline := blockStart_line hstartline
      have hread : ∀ g', Reads (.none g') (definitionText label target :: (X ++ [[]])) (.leaf g' (.definition label target) :: bs') :=
        fun g' => reads_definition hkind hafter (by rw [he]; exact reads_blanks m (by simpa using hrs))
      refine ⟨.leaf (!after) (.definition label target) :: bs', (if after then [] else [[]]) ++ (definitionText label target :: X), ?_, ?_,
        fun hwo => ?_, fun hwo hfit => ?_, ⟨⟨rfl, rfl, ?_⟩, hX.alike⟩, ?_, ?_, ?_, ?_, ?_⟩
      · rw [treeDoc, if_pos (by exact hdef), hX.text, treeText, leafText, coreText, etext]
        cases after <;> simp [unlines]
      · exact sameBlocks_cons (by rw [SameTree]; exact ⟨rfl, rfl⟩) hX.same
      · rw [FitsBlocks]; exact ⟨by simp [FitsTree], hX.fit hwo⟩
      · rw [FitsBlocks] at hfit
        rw [blocksLeaves, blocksLeaves, paragraphLines_append, paragraphLines_append, hX.keep hwo hfit.2]
        rfl
      · rw [treeText, treeText]
      · rw [shapedBlocks, hX.shaped, shaped]; rfl
      · intro l hm
        rcases List.mem_append.1 hm with hm | hm
        · cases after
          · have e : l = [] := by simpa using hm
            rw [e]; simp
          · simp at hm
        · rcases List.mem_cons.1 hm with rfl | hm
          · exact hc
          · exact hX.chars l hm
      · refine noTabs_append (by cases after <;> simp [NoTabs]) ?_
        intro l hm hb
        rcases List.mem_cons.1 hm with rfl | hm
        · rw [show (definitionText label target).all blankChar = false from hline.2.1] at hb; cases hb
        · exact hX.tabs l hm hb
      · intro h0
        rw [h0] at hps; cases hps
      · refine ⟨if after then 0 else 1, definitionText label target :: (X ++ [[]]), ?_, ?_, ?_,
          .inr ⟨_, _, rfl, hline.2.1, hline.2.2, fun s g start t items hs => by rw [hline.1] at hs; cases hs⟩⟩
        · cases after <;> simp
        · intro _
          cases after
          · left; decide
          · right
            refine ⟨rfl, ?_⟩
            rw [afterDefinition, hkind]
        · have := hread (!after)
          cases after <;> exact this
    · -- another block
      have hdef : b.isDefinition = false := by simpa using hdef
      rw [hdef] at hf
      simp only [Bool.false_eq_true, if_false] at hf
      have hf2 : follows notBothLists (b :: shownTrees bs) = true ∧ ∀ p, prev = some p → notBothLists p b = true := by
        cases prev with
        | none => exact ⟨hf, by simp⟩
        | some p =>
          simp only [Option.toList_some, List.cons_append, List.nil_append] at hf
          rw [follows, Bool.and_eq_true] at hf
          exact ⟨hf.2, fun q hq => by cases hq; exact hf.1⟩
      obtain ⟨n, hgap, hn⟩ : ∃ n, coreGap (prev.map topCore) (topCore b) = unlines (List.replicate n []) ∧ (prev.isSome = true ↔ 0 < n) := by
        cases prev with
        | none => exact ⟨0, rfl, by simp⟩
        | some p =>
          obtain ⟨g, hg⟩ := coreGap_lines (topCore p) (topCore b)
          exact ⟨g + 1, hg, by simp⟩
      obtain ⟨b', L, hb⟩ := written_top ho (decide (0 < n)) (fun l hm => hl l (by simp [hm])) hr.1 hw.1 hdef
      obtain ⟨bs', X, hX⟩ := written_rest ho bs (some b) false (.inl rfl) (fun l hm => hl l (by simp [hm])) hr.2 hw.2 hf2.1
      obtain ⟨m, rest, he, hm, hrs, ha⟩ := hX.reads
      have hm : 0 < m := by simpa using hm rfl
      rw [decide_eq_true hm] at hrs
      have hread := hb.reads m rest bs' hm hrs (by
        rcases ha with ha | ⟨l, r, ha, h1, h2, h3⟩
        · exact .inl ha
        · exact .inr ⟨l, r, ha, h1, h2, fun s g start t items hs e => h3 s g start t items hs (by rw [e])⟩)
      obtain ⟨l, L', hL, h1, h2, h3, h4⟩ := hb.head
      refine ⟨b' :: bs', List.replicate n [] ++ (L ++ X), ?_, sameBlocks_cons hb.same hX.same, fun hwo => by rw [FitsBlocks]; exact ⟨hb.fit hwo, hX.fit hwo⟩, fun hwo hfit => ?_,
        ⟨⟨sameTree_isDefinition hb.same, hb.level, hb.again⟩, hX.alike⟩, ?_, ?_,
        noTabs_append (noTabs_blanks n) (noTabs_append hb.tabs hX.tabs), ?_, ?_⟩
      · rw [treeDoc, if_neg (by simp [hdef]), hgap, hb.text, hX.text, unlines_append', unlines_append', List.append_assoc]
      · rw [FitsBlocks] at hfit
        rw [blocksLeaves, blocksLeaves, paragraphLines_append, paragraphLines_append, hb.keep hwo hfit.1, hX.keep hwo hfit.2]
      · rw [shapedBlocks, hb.shaped, hX.shaped]; rfl
      · intro l hl
        rcases List.mem_append.1 hl with hl | hl
        · exact chars_blanks _ l hl
        · rcases List.mem_append.1 hl with hl | hl
          · exact hb.chars l hl
          · exact hX.chars l hl
      · intro h0
        have : n = 0 := by
          have := hn
          rw [h0] at this
          simp at this
          exact this
        rw [this, hL]
        simpa using h3
      · refine ⟨n, L ++ (List.replicate m [] ++ rest), ?_, fun h => .inl (hn.1 h), hread, .inr ⟨l, L' ++ (List.replicate m [] ++ rest), by rw [hL]; rfl, h1, h2, ?_⟩⟩
        · rw [← he]; simp
        · intro s g start t items hs hpv
          obtain ⟨g', t', items', hb'⟩ := h4 s hs
          have := hf2.2 _ hpv
          rw [hb'] at this
          simp only [notBothLists, bne_iff_ne] at this
          exact fun e => this e.symm

end Hongdown.Model
