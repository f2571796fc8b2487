import Verif.Lemmas.NestedLine

/-!
# The lines that are written for nested lists are read back
-/

namespace Hongdown.Model
open Spec

/-- Indent a line unless it is empty. -/
def shift (n : Nat) (l : List Char) : List Char := if l = [] then [] else spaces n ++ l

theorem shift_nil (n : Nat) : shift n [] = [] := by simp [shift]

theorem shift_of_ne {n : Nat} {l : List Char} (h : l ≠ []) : shift n l = spaces n ++ l := by simp [shift, h]

theorem shift_shift (a b : Nat) (l : List Char) : shift a (shift b l) = shift (a + b) l := by
  by_cases h : l = []
  · simp [h, shift_nil]
  · rw [shift_of_ne h, shift_of_ne (by simp [h]), shift_of_ne h, ← List.append_assoc, spaces_add]

/-- Does the text of the block end with a line break? -/
def ends (b : TreeBlock) : Bool := TreeBlock.isList b || TreeBlock.isCode b

/-- The lines after an item, or none. -/
def Outside (rest : List (List Char)) : Prop := rest = [] ∨ ∃ l r, rest = l :: r ∧ blankLine l = false ∧ indentOf l < 4

theorem itemLines_blanks (n : Nat) {rest : List (List Char)} (h : Outside rest) :
    itemLines 4 (List.replicate n [] ++ rest) = (List.replicate n [], rest) := by
  induction n with
  | zero =>
    rcases h with rfl | ⟨l, r, rfl, hb, hi⟩
    · rfl
    · rw [List.replicate_zero, List.nil_append, itemLines, if_neg]
      unfold indentOf at hi
      rw [hb]
      simp only [Bool.false_eq_true, false_or]
      omega
  | succ n ih =>
    rw [List.replicate_succ, List.cons_append, itemLines, if_pos (.inl rfl), ih]
    rfl

theorem itemLines_shift (n : Nat) {rest : List (List Char)} (h : Outside rest) : ∀ xs : List (List Char),
    itemLines 4 (xs.map (shift 4) ++ (List.replicate n [] ++ rest)) = (xs ++ List.replicate n [], rest)
  | [] => itemLines_blanks n h
  | x :: xs => by
    rw [List.map_cons, List.cons_append, itemLines, if_pos, itemLines_shift n h xs]
    · by_cases hx : x = []
      · simp [hx, shift_nil]
      · rw [shift_of_ne hx]; simp [spaces]
    · by_cases hx : x = []
      · left; rw [hx]; rfl
      · right
        rw [shift_of_ne hx]
        have : (spaces 4 ++ x).takeWhile (fun c => decide (c = ' ')) = spaces 4 ++ x.takeWhile (fun c => decide (c = ' ')) :=
          List.takeWhile_append_of_pos (by intro c hc; rw [List.eq_of_mem_replicate hc]; rfl)
        rw [this]
        simp [spaces]

theorem last_blank (n : Nat) {xs : List (List Char)} (h : ∀ l ∈ xs.getLast?, blankLine l = false) :
    (xs ++ List.replicate n []).getLast?.any blankLine = decide (0 < n) := by
  cases n with
  | zero =>
    simp only [List.replicate_zero, List.append_nil]
    cases hx : xs.getLast? with
    | none => rfl
    | some l => rw [hx] at h; simpa using h l rfl
  | succ n =>
    have : List.replicate (n + 1) ([] : List Char) = List.replicate n [] ++ [[]] := by
      rw [List.replicate_succ']
    rw [this, ← List.append_assoc, List.getLast?_concat]
    simp [blankLine]

theorem itemStart_column {l : List Char} {s : ItemStart} (h : itemStart l = some s) : blankLine l = false ∧ indentOf l < 4 := by
  unfold itemStart at h
  split at h
  · cases h
  · next t ht =>
    split at h
    · cases h
    · next hc =>
      cases h
      simp only [not_or] at hc
      have hcol : s.column = indentOf l := by
        unfold readItem at ht
        simp only at ht
        split at ht
        · cases ht
        · split at ht
          · split at ht
            · obtain ⟨a, _, rfl⟩ := map_some ht; rfl
            · cases ht
          · split at ht
            · obtain ⟨a, _, rfl⟩ := map_some ht; rfl
            · cases ht
      refine ⟨?_, by rw [← hcol]; omega⟩
      cases hb : blankLine l with
      | false => rfl
      | true =>
        have : blankLine (l.drop s.content) = true := by
          unfold blankLine at hb ⊢
          rw [List.all_eq_true] at hb ⊢
          exact fun c hc => hb c (List.mem_of_mem_drop hc)
        exact absurd this hc.2.2

/-! ### Blocks -/

/-- What is known of a block that is no list. -/
structure LeafGood (cx : Cx) (b : CoreBlock) : Prop where
  valid : CoreValid b
  fits : BlockFits cx b
  tabs : ∀ info ls, b = .code info ls → NoTabs ls

/-- The text of a block in an item, with its indentation and a line break at its end. -/
def closed (cx : Cx) (d : Nat) (b : TreeBlock) : List Char :=
  (if TreeBlock.isList b then [] else spaces (4 * d)) ++ treeText cx d b ++ (if ends b then [] else ['\n'])

/-- What may stand after the lines of a block and `n` empty lines. -/
def AfterOk (b : TreeBlock) (n : Nat) (rest : List (List Char)) : Prop :=
  rest = [] ∨ ∃ l r, rest = l :: r ∧ blankLine l = false ∧ indentOf l < 4 ∧
    match b with
    | .leaf _ (.paragraph _) => 0 < n ∨ ∃ s, ItemLine s l ∧ mayInterrupt s = true
    | .leaf _ _ => True
    | .quote _ _ _ => True
    | .table _ _ _ => True
    | .list _ start _ _ => 0 < n ∧ ∀ s, itemStart l = some s → s.number.isSome ≠ start.isSome

/-- What is known of the lines that are written for a block, and of the block that is read back. -/
structure WrittenTree (cx : Cx) (d : Nat) (b b' : TreeBlock) (L : List (List Char)) : Prop where
  text : closed cx d b = unlines (L.map (shift (4 * d)))
  same : SameTree cx.opts.defaultLanguage b b'
  fit : FitWidth cx.width → FitsTree (FitsOrWord cx.width cx.opts.lineWidth) 0 d b'
  keep : FitWidth cx.width → FitsTree (Fits cx.width cx.opts.lineWidth) 0 d b → paragraphLines (leaves b') = paragraphLines (leaves b)
  gap : b'.gap = b.gap
  isList : TreeBlock.isList b' = TreeBlock.isList b
  isCode : TreeBlock.isCode b' = TreeBlock.isCode b
  again : treeText cx d b' = treeText cx d b
  shaped : shaped b' = true
  inItem : inItem b' = true
  chars : ∀ l ∈ L, '\n' ∉ l ∧ '\r' ∉ l ∧ '\x00' ∉ l
  tabs : NoTabs L
  ne : L ≠ []
  last : ∀ l ∈ L.getLast?, blankLine l = false
  para : b.isPara = true → ∀ l ∈ L.head?, TextLine l
  plain : TreeBlock.isList b = false → ∀ l ∈ L.head?, BlockStart l
  list : ∀ g start t items, b = .list g start t items → ∀ l ∈ L.head?, ∃ s, ItemLine s l ∧ s.number = start
  reads : ∀ n rest bs, Reads (.none (decide (0 < n))) rest bs → AfterOk b n rest →
    Reads (.none b.gap) (L ++ (List.replicate n [] ++ rest)) (b' :: bs)

theorem blankLine_text {l : List Char} (h : TextLine l) : blankLine l = false := by
  obtain ⟨c, hc, hl⟩ := textLine_letter h
  exact not_blank_line hc (letter_not_blank hl)

theorem unlines_cons (l : List Char) (ls : List (List Char)) : unlines (l :: ls) = l ++ '\n' :: unlines ls := by
  simp [unlines]

theorem layout_shift (n : Nat) {ms : List (List Char)} (m0 : ms ≠ []) (h : ∀ m ∈ ms, TextLine m) :
    spaces n ++ joinWith ['\n'] (layout [] (spaces n) ms) ++ ['\n'] = unlines (ms.map (shift n)) := by
  obtain ⟨m, r, rfl⟩ := List.exists_cons_of_ne_nil m0
  rw [List.append_assoc, layout, unlines_joinWith _ (by simp), unlines_cons, List.map_cons, unlines_cons,
    shift_of_ne (textLine_ne_nil (h m (by simp)))]
  have : r.map (shift n) = r.map (spaces n ++ ·) :=
    List.map_congr_left fun x hx => shift_of_ne (textLine_ne_nil (h x (by simp [hx])))
  rw [this]
  simp

theorem written_tree_paragraph (cx : Cx) (d : Nat) (g : Bool) {ls : List (List Char)} (hv : CoreValid (.paragraph ls)) :
    ∃ b' L, WrittenTree cx (d + 1) (.leaf g (.paragraph ls)) b' L := by
  obtain ⟨hv0, hv1, ha⟩ := hv
  obtain ⟨ms, m0, mt, hw, hsame, _, e1, e2⟩ := wrapFirst_plain cx.width (spaces (4 * (d + 1))) cx.opts.lineWidth hv0 hv1 ha
  have e3 : wrapSegment cx.width (joinWith ['\x00'] ls) [] (spaces (4 * (d + 1))) cx.opts.lineWidth =
      joinWith ['\n'] (layout [] (spaces (4 * (d + 1))) ms) := by
    have := e1
    rw [wrapTextFirstLine, splitOn_of_not_mem (joinLines_no hv1 (by decide) (by decide) (by decide))] at this
    exact this
  refine ⟨.leaf g (.paragraph ms), ms, ?_, ?_, fun hwo => ?_, fun hwo hfit => ?_, rfl, rfl, rfl, ?_, rfl, rfl, fun l hl => textLine_chars (mt l hl),
    fun l hl _ => textLine_noTab (mt l hl), m0, fun l hl => blankLine_text (mt l (List.mem_of_getLast? hl)),
    fun _ l hl => mt l (List.mem_of_head? hl), fun _ l hl => blockStart_text (mt l (List.mem_of_head? hl)), by simp, ?_⟩
  · show spaces (4 * (d + 1)) ++ leafText cx (d + 1) (.paragraph ls) ++ ['\n'] = _
    rw [leafText, e1, layout_shift _ m0 mt]
  · rw [SameTree]; exact ⟨hw.symm, hsame⟩
  · rw [FitsTree, Nat.zero_mul]
    exact parFits_of hwo.toWidthOk _ _ hv0 hv1 mt e3
  · rw [FitsTree, Nat.zero_mul] at hfit
    have e4 := wrapSegment_keep hwo.toWidthOk _ hv0 hv1 hfit
    rw [e3] at e4
    have hp : '\n' ∉ spaces (4 * (d + 1)) := fun hm => absurd (List.eq_of_mem_replicate hm) (by decide)
    rw [layout_inj hp m0 hv0 mt hv1 e4]
  · rw [treeText, treeText, leafText, leafText, e1, e2]
  · intro n rest bs hr ha
    refine reads_text m0 mt (reads_end ?_ (reads_blanks n (by simpa using hr)))
    cases n with
    | succ n => exact .inr ⟨[], _, rfl, .inl rfl⟩
    | zero =>
      rcases ha with rfl | ⟨l, r, rfl, _, _, h | h⟩
      · exact .inl rfl
      · exact absurd h (by omega)
      · exact .inr ⟨l, r, rfl, .inr h⟩

theorem written_tree_code {cx : Cx} (ho : CoreOptions cx.opts) (d : Nat) (g : Bool) {info : List Char} {ls : List (List Char)}
    (hg : LeafGood cx (.code info ls)) : ∃ b' L, WrittenTree cx (d + 1) (.leaf g (.code info ls)) b' L := by
  obtain ⟨hl, hi, hc⟩ := hg.valid
  have hio : InfoOk cx info := hg.fits
  have hstrip := strip_shownInfo ho.language.1 info
  have hplain : InfoPlain (shownInfo cx.opts.defaultLanguage info) := shownInfo_plain ho.language.2.2 hi
  have hlen : 3 ≤ fenceLength cx.opts.minFenceLength cx.opts.fenceChar (unlines ls) := by
    have := ho.fenceLength
    simp only [fenceLength]
    omega
  have hfc : cx.opts.fenceChar ≠ '\n' ∧ cx.opts.fenceChar ≠ '\r' ∧ cx.opts.fenceChar ≠ '\x00' := by
    rcases ho.fence with h | h <;> rw [h] <;> decide
  have hfr := replicate_chars (fenceLength cx.opts.minFenceLength cx.opts.fenceChar (unlines ls)) hfc
  have hip : ∀ c ∈ infoPart cx info, c ≠ '\n' ∧ c ≠ '\r' ∧ c ≠ '\x00' := by
    intro c hm
    simp only [infoPart, outputInfo_eq] at hm
    split at hm
    · cases hm
    · rcases List.mem_append.1 hm with h | h
      · split at h
        · rw [List.mem_singleton.1 h]; decide
        · cases h
      · have := hplain c h
        exact ⟨this.1, this.2.1, this.2.2.1⟩
  have hfb : ∀ x : List Char, (fenceOf cx (unlines ls) ++ x).all blankChar = false := by
    intro x
    obtain ⟨k, hk⟩ : ∃ k, fenceLength cx.opts.minFenceLength cx.opts.fenceChar (unlines ls) = k + 1 :=
      ⟨fenceLength cx.opts.minFenceLength cx.opts.fenceChar (unlines ls) - 1, by omega⟩
    rw [fenceOf, hk, List.replicate_succ]
    rcases ho.fence with e | e <;> rw [e] <;> rfl
  have hfb0 : (fenceOf cx (unlines ls)).all blankChar = false := by simpa using hfb []
  have hfne : ∀ x : List Char, fenceOf cx (unlines ls) ++ x ≠ [] := by
    intro x e
    have := hfb x
    rw [e] at this; cases this
  have hkind : lineKind (fenceOf cx (unlines ls) ++ infoPart cx info) =
      .fence ⟨cx.opts.fenceChar, fenceLength cx.opts.minFenceLength cx.opts.fenceChar (unlines ls), shownInfo cx.opts.defaultLanguage info⟩ := by
    rw [fenceOf, lineKind_fence ho.fence hio hstrip hplain hlen]
  refine ⟨.leaf g (.code (shownInfo cx.opts.defaultLanguage info) ls),
    (fenceOf cx (unlines ls) ++ infoPart cx info) :: ls ++ [fenceOf cx (unlines ls)], ?_, ?_, fun _ => by simp [FitsTree], fun _ _ => rfl, rfl, rfl, rfl, ?_, rfl, rfl, ?_, ?_, by simp, ?_, ?_, ?_, by simp, ?_⟩
  · show spaces (4 * (d + 1)) ++ leafText cx (d + 1) (.code info ls) ++ [] = _
    rw [leafText, codeBlockIndentedText_eq, lines_unlines hl, List.append_nil, List.cons_append, unlines_cons, List.cons_append, List.map_cons, unlines_cons,
      shift_of_ne (hfne _), List.map_append, List.map_singleton, shift_of_ne (by simpa using hfne [])]
    have e1 : ls.map (fun l => (if false = true then ['>', ' '] else []) ++ indentLine (spaces (4 * (d + 1))) l) = ls.map (shift (4 * (d + 1))) := by
      refine List.map_congr_left fun x _ => ?_
      simp [indentLine, shift]
    rw [e1]
    simp
  · rw [SameTree]; exact ⟨rfl, rfl⟩
  · rw [treeText, treeText, leafText, leafText, codeBlockIndentedText_eq, codeBlockIndentedText_eq]
    simp only [infoPart, outputInfo_eq, shownInfo_twice ho.language.2.1]
  · intro l hm
    simp only [List.cons_append, List.mem_cons, List.mem_append, List.not_mem_nil, or_false] at hm
    rcases hm with rfl | hm | rfl
    · simp only [fenceOf, List.mem_append, not_or]
      exact ⟨⟨hfr.1, fun h => (hip _ h).1 rfl⟩, ⟨hfr.2.1, fun h => (hip _ h).2.1 rfl⟩, hfr.2.2, fun h => (hip _ h).2.2 rfl⟩
    · exact ⟨(hl l hm).1, hc l hm⟩
    · exact hfr
  · intro l hm
    simp only [List.cons_append, List.mem_cons, List.mem_append, List.not_mem_nil, or_false] at hm
    rcases hm with rfl | hm | rfl
    · intro e; rw [hfb] at e; cases e
    · exact hg.tabs _ _ rfl l hm
    · intro e; rw [hfb0] at e; cases e
  · intro l hm
    rw [List.getLast?_concat, Option.mem_some] at hm
    rw [← hm]
    exact hfb0
  · intro h; simp [TreeBlock.isPara] at h
  · intro _ l hm k hk
    simp only [List.cons_append, List.head?_cons, Option.mem_some] at hm
    rw [← hm, hkind] at hk
    rw [← hk]; simp
  · intro n rest bs hr _
    have hrest : Reads (.none false) (List.replicate n [] ++ rest) bs := reads_blanks n (by simpa using hr)
    have := reads_fence (g := g) hkind (ls := ls) (cl := fenceOf cx (unlines ls)) (fun l hm => ?_) ?_ hrest
    · rw [List.append_assoc]
      exact this
    · refine not_isClosing (fence_ws ho.fence) (Nat.lt_of_lt_of_le (by decide) hlen) (leadingFence_lt _ _ _ ?_)
      rw [lines_unlines hl]; exact hm
    · exact isClosing_fence (fence_sp ho.fence) _

/-! ### The blocks of an item -/

/-- The empty lines between two blocks of an item. -/
def blanksBetween (prev b : TreeBlock) : Nat :=
  match b with
  | .list g _ _ _ => if ends prev then (if g then 2 else 1) else (if g then 1 else 0)
  | .leaf _ (.code _ _) => if ends prev then 2 else 1
  | _ => 1

theorem noDefinition_of_inItem {it : List TreeBlock} (h : it.all inItem = true) : it.any TreeBlock.isDefinition = false := by
  rw [List.any_eq_false]
  intro b hb
  have := List.all_eq_true.1 h b hb
  cases b with
  | quote _ _ => simp [TreeBlock.isDefinition]
  | table _ _ _ => simp [TreeBlock.isDefinition]
  | list _ _ _ _ => simp [TreeBlock.isDefinition]
  | leaf _ b => cases b <;> simp [inItem, TreeBlock.isDefinition, CoreBlock.isDefinition] at this ⊢

theorem between_closed (cx : Cx) (d : Nat) (prev b : TreeBlock) (hb : inItem b = true) :
    between d (some prev) b ++ treeText cx d b ++ (if ends b then [] else ['\n']) =
      (if ends prev then [] else ['\n']) ++ unlines (List.replicate (blanksBetween prev b) []) ++ closed cx d b := by
  cases b with
  | quote _ _ => simp [inItem] at hb
  | table _ _ _ => simp [inItem] at hb
  | list g s t items =>
    have e : ends (.list g s t items) = true := rfl
    cases hp : ends prev <;> cases g <;>
      simp [between, closed, blanksBetween, e, TreeBlock.isList, hp, unlines, List.replicate_succ]
  | leaf g b =>
    cases b with
    | heading _ _ => simp [inItem] at hb
    | definition _ _ => simp [inItem] at hb
    | rule => simp [inItem] at hb
    | paragraph ls =>
      have hp : (TreeBlock.isCode prev || TreeBlock.isList prev) = ends prev := by simp [ends, Bool.or_comm]
      simp only [between, hp]
      cases ends prev <;> simp [closed, blanksBetween, ends, TreeBlock.isList, TreeBlock.isCode, unlines, List.replicate_succ]
    | code info ls =>
      have e : ends (.leaf g (.code info ls)) = true := rfl
      cases hp : ends prev <;>
      simp [between, closed, blanksBetween, e, hp, TreeBlock.isList, unlines, List.replicate_succ]

theorem blanks_gap {prev b : TreeBlock} (h : mayStandAfter prev b = true) : decide (0 < blanksBetween prev b) = b.gap := by
  cases b with
  | quote _ _ => simp [mayStandAfter] at h
  | table _ _ _ => simp [mayStandAfter] at h
  | list g s t items =>
    cases prev with
    | quote _ _ => simp [mayStandAfter] at h
    | table _ _ _ => simp [mayStandAfter] at h
    | list _ _ _ _ => simp [mayStandAfter] at h
    | leaf _ p =>
      cases p with
      | heading _ _ => simp [mayStandAfter] at h
      | definition _ _ => simp [mayStandAfter] at h
      | rule => simp [mayStandAfter] at h
      | paragraph _ => cases g <;> simp [blanksBetween, ends, TreeBlock.isList, TreeBlock.isCode, TreeBlock.gap]
      | code _ _ =>
        simp [mayStandAfter] at h
        simp [blanksBetween, ends, TreeBlock.isList, TreeBlock.isCode, TreeBlock.gap, h]
  | leaf g b =>
    cases b with
    | heading _ _ => simp [mayStandAfter] at h
    | definition _ _ => simp [mayStandAfter] at h
    | rule => simp [mayStandAfter] at h
    | paragraph _ =>
      simp [mayStandAfter] at h
      simp [blanksBetween, TreeBlock.gap, h]
    | code _ _ =>
      simp [mayStandAfter] at h
      simp only [blanksBetween, TreeBlock.gap, h]
      split <;> rfl

theorem mayStandAfter_inItem {prev b : TreeBlock} (h : mayStandAfter prev b = true) : inItem b = true := by
  cases b with
  | quote _ _ => simp [mayStandAfter] at h
  | table _ _ _ => simp [mayStandAfter] at h
  | list g s t items => rfl
  | leaf g b =>
    cases b with
    | heading _ _ => simp [mayStandAfter] at h
    | definition _ _ => simp [mayStandAfter] at h
    | rule => simp [mayStandAfter] at h
    | paragraph _ => rfl
    | code _ _ => rfl

/-- What is known of the lines of the blocks after a block. -/
structure WrittenBlocks (cx : Cx) (d : Nat) (prev : TreeBlock) (bs bs' : List TreeBlock) (M : List (List Char)) : Prop where
  text : blocksText cx d (some prev) bs ++ (if (prev :: bs).getLast?.any ends then [] else ['\n']) =
    (if ends prev then [] else ['\n']) ++ unlines (M.map (shift (4 * d)))
  same : SameBlocks cx.opts.defaultLanguage bs bs'
  fit : FitWidth cx.width → FitsBlocks (FitsOrWord cx.width cx.opts.lineWidth) 0 d bs'
  keep : FitWidth cx.width → FitsBlocks (Fits cx.width cx.opts.lineWidth) 0 d bs → paragraphLines (blocksLeaves bs') = paragraphLines (blocksLeaves bs)
  gaps : bs'.map TreeBlock.gap = bs.map TreeBlock.gap
  kinds : bs'.map ends = bs.map ends
  again : ∀ prev', TreeBlock.isCode prev' = TreeBlock.isCode prev → TreeBlock.isList prev' = TreeBlock.isList prev →
    blocksText cx d (some prev') bs' = blocksText cx d (some prev) bs
  shaped : shapedBlocks bs' = true
  inItem : bs'.all inItem = true
  chars : ∀ l ∈ M, '\n' ∉ l ∧ '\r' ∉ l ∧ '\x00' ∉ l
  tabs : NoTabs M
  last : ∀ l ∈ M.getLast?, blankLine l = false
  reads : ∀ j, ∃ n rest, M ++ List.replicate j [] = List.replicate n [] ++ rest ∧ Reads (.none (decide (0 < n))) rest bs' ∧ AfterOk prev n rest

theorem writtenBlocks_nil (cx : Cx) (d : Nat) (prev : TreeBlock) : WrittenBlocks cx d prev [] [] [] where
  text := by cases h : ends prev <;> simp [blocksText, unlines, h]
  same := by rw [SameBlocks]; trivial
  fit := fun _ => by rw [FitsBlocks]; trivial
  keep := fun _ _ => rfl
  gaps := rfl
  kinds := rfl
  again := fun _ _ _ => by rw [blocksText, blocksText]
  shaped := rfl
  inItem := rfl
  chars := by simp
  tabs := by intro l hl; cases hl
  last := by simp
  reads := fun j => ⟨j, [], by simp, reads_nil _, .inl rfl⟩

theorem between_again {d : Nat} {p p' b b' : TreeBlock} (h1 : TreeBlock.isCode p' = TreeBlock.isCode p) (h2 : TreeBlock.isList p' = TreeBlock.isList p)
    (hg : b'.gap = b.gap) (hl : TreeBlock.isList b' = TreeBlock.isList b) (hc : TreeBlock.isCode b' = TreeBlock.isCode b)
    (hi : inItem b = true) (hi' : inItem b' = true) : between d (some p') b' = between d (some p) b := by
  cases b with
  | quote _ _ => simp [inItem] at hi
  | table _ _ _ => simp [inItem] at hi
  | list g s t items =>
    cases b' with
    | quote _ _ => simp [inItem] at hi'
    | table _ _ _ => simp [inItem] at hi'
    | leaf _ _ => simp [TreeBlock.isList] at hl
    | list g' _ _ _ =>
      simp only [TreeBlock.gap] at hg
      simp [between, hg]
  | leaf g b =>
    cases b' with
    | quote _ _ => simp [inItem] at hi'
    | table _ _ _ => simp [inItem] at hi'
    | list _ _ _ _ => simp [TreeBlock.isList] at hl
    | leaf g' b' =>
      cases b <;> cases b' <;> simp [inItem, TreeBlock.isCode] at hi hi' hc <;> simp [between, h1, h2]

theorem sameBlocks_cons {dflt : List Char} {a b : TreeBlock} {as bs : List TreeBlock} (h : SameTree dflt a b) (h' : SameBlocks dflt as bs) :
    SameBlocks dflt (a :: as) (b :: bs) := by
  rw [SameBlocks]; exact ⟨h, h'⟩

theorem noTabs_append {a b : List (List Char)} (ha : NoTabs a) (hb : NoTabs b) : NoTabs (a ++ b) := by
  intro l hl
  rcases List.mem_append.1 hl with h | h
  · exact ha l h
  · exact hb l h

theorem noTabs_blanks (n : Nat) : NoTabs (List.replicate n []) := by
  intro l hl
  rw [List.eq_of_mem_replicate hl]; simp

theorem chars_blanks (n : Nat) : ∀ l ∈ List.replicate n ([] : List Char), '\n' ∉ l ∧ '\r' ∉ l ∧ '\x00' ∉ l := by
  intro l hl
  rw [List.eq_of_mem_replicate hl]; simp

theorem map_shift_blanks (n k : Nat) : (List.replicate k ([] : List Char)).map (shift n) = List.replicate k [] := by
  rw [List.map_replicate, shift_nil]

/-- The start of an item may interrupt a paragraph. -/
theorem regular_interrupts {g : Bool} {start : Option Nat} {t : Bool} {items : List (List TreeBlock)} (h : regular (.list g start t items) = true)
    {s : ItemStart} (hs : s.number = start) : mayInterrupt s = true := by
  rw [regular, Bool.and_eq_true] at h
  have := h.1
  simp only [Bool.or_eq_true, Bool.and_eq_true, decide_eq_true_eq] at this
  unfold mayInterrupt
  rw [hs]
  rcases this with h | h
  · simp [h]
  · simp [h.1]

theorem getLast_append {a b : List (List Char)} (h : b ≠ []) : (a ++ b).getLast? = b.getLast? := by
  rw [List.getLast?_append]
  cases hb : b.getLast? with
  | none => exact absurd (List.getLast?_eq_none_iff.1 hb) h
  | some x => rfl

theorem writtenBlocks_cons {cx : Cx} {d : Nat} {prev b b' : TreeBlock} {bs bs' : List TreeBlock} {L M : List (List Char)}
    (hm : mayStandAfter prev b = true) (hreg : regular b = true) (hb : WrittenTree cx d b b' L) (hbs : WrittenBlocks cx d b bs bs' M) :
    WrittenBlocks cx d prev (b :: bs) (b' :: bs') (List.replicate (blanksBetween prev b) [] ++ (L ++ M)) where
  text := by
    rw [blocksText, List.getLast?_cons_cons]
    have h1 := hbs.text
    have h2 := between_closed cx d prev b (mayStandAfter_inItem hm)
    rw [List.append_assoc, h1, ← List.append_assoc, h2, hb.text, List.map_append, unlines_append', List.map_append, unlines_append', map_shift_blanks]
    simp only [List.append_assoc]
  same := sameBlocks_cons hb.same hbs.same
  fit := fun hwo => by rw [FitsBlocks]; exact ⟨hb.fit hwo, hbs.fit hwo⟩
  keep := fun hwo hfit => by
    rw [FitsBlocks] at hfit
    rw [blocksLeaves, blocksLeaves, paragraphLines_append, paragraphLines_append, hb.keep hwo hfit.1, hbs.keep hwo hfit.2]
  gaps := by simp [hb.gap, hbs.gaps]
  kinds := by simp [ends, hb.isList, hb.isCode]; exact hbs.kinds
  again := by
    intro prev' h1 h2
    rw [blocksText, blocksText, hbs.again b' hb.isCode hb.isList, hb.again,
      between_again h1 h2 hb.gap hb.isList hb.isCode (mayStandAfter_inItem hm) hb.inItem]
  shaped := by rw [shapedBlocks, hb.shaped, hbs.shaped]; rfl
  inItem := by rw [List.all_cons, hb.inItem, hbs.inItem]; rfl
  chars := by
    intro l hl
    rcases List.mem_append.1 hl with h | h
    · exact chars_blanks _ l h
    · rcases List.mem_append.1 h with h | h
      · exact hb.chars l h
      · exact hbs.chars l h
  tabs := noTabs_append (noTabs_blanks _) (noTabs_append hb.tabs hbs.tabs)
  last := by
    intro l hl
    have h0 : L ++ M ≠ [] := by simp [hb.ne]
    rw [getLast_append h0] at hl
    cases hM : M with
    | nil => rw [hM, List.append_nil] at hl; exact hb.last l hl
    | cons m M' =>
      rw [getLast_append (by rw [hM]; simp)] at hl
      exact hbs.last l hl
  reads := by
    intro j
    obtain ⟨n, rest, he, hr, ha⟩ := hbs.reads j
    obtain ⟨l, L', hL⟩ := List.exists_cons_of_ne_nil hb.ne
    have hhead : l ∈ L.head? := by rw [hL]; rfl
    refine ⟨blanksBetween prev b, L ++ (List.replicate n [] ++ rest), by rw [← he]; simp, ?_, ?_⟩
    · rw [blanks_gap hm]
      exact hb.reads n rest bs' hr ha
    · have hline : blankLine l = false ∧ indentOf l < 4 := by
        cases hl : TreeBlock.isList b with
        | false => exact (blockStart_line (hb.plain hl l hhead)).2
        | true =>
          cases b with
          | quote _ _ => simp [TreeBlock.isList] at hl
          | table _ _ _ => simp [TreeBlock.isList] at hl
          | leaf _ _ => simp [TreeBlock.isList] at hl
          | list g s t items =>
            obtain ⟨s', hs, _⟩ := hb.list g s t items rfl l hhead
            exact itemStart_column hs.start
      refine .inr ⟨l, L' ++ (List.replicate n [] ++ rest), by rw [hL]; rfl, hline.1, hline.2, ?_⟩
      cases prev with
      | quote _ _ => trivial
      | table _ _ _ => trivial
      | list g s t items =>
        cases b with
        | quote _ _ => simp [mayStandAfter] at hm
        | table _ _ _ => simp [mayStandAfter] at hm
        | list _ _ _ _ => simp [mayStandAfter] at hm
        | leaf g' b =>
          refine ⟨?_, ?_⟩
          · cases b <;> simp [blanksBetween, ends, TreeBlock.isList]
          · intro s hs
            rw [(blockStart_line (hb.plain rfl l hhead)).1] at hs
            cases hs
      | leaf g p =>
        cases p with
        | heading _ _ => trivial
        | definition _ _ => trivial
        | rule => trivial
        | code _ _ => trivial
        | paragraph ls =>
          cases b with
          | quote _ _ => simp [mayStandAfter] at hm
          | table _ _ _ => simp [mayStandAfter] at hm
          | leaf g' b =>
            left
            cases b <;> simp [blanksBetween, ends, TreeBlock.isList, TreeBlock.isCode]
          | list g' s t items =>
            right
            obtain ⟨s', hs, hn⟩ := hb.list g' s t items rfl l hhead
            exact ⟨s', hs, regular_interrupts hreg hn⟩

/-! ### Items -/

/-- The lines of an item. -/
def hang (marker : List Char) : List (List Char) → List (List Char)
  | [] => []
  | x :: xs => (marker ++ x) :: xs.map (shift 4)

/-- What is known of the lines of an item. -/
structure WrittenItem (cx : Cx) (d : Nat) (it it' : List TreeBlock) (x : List Char) (xs : List (List Char)) : Prop where
  text : blocksText cx (d + 1) none it ++ (if it.getLast?.any ends then [] else ['\n']) =
    x ++ '\n' :: unlines (xs.map (shift (4 * (d + 1))))
  same : SameBlocks cx.opts.defaultLanguage it it'
  fit : FitWidth cx.width → FitsBlocks (FitsOrWord cx.width cx.opts.lineWidth) 0 (d + 1) it'
  keep : FitWidth cx.width → FitsBlocks (Fits cx.width cx.opts.lineWidth) 0 (d + 1) it → paragraphLines (blocksLeaves it') = paragraphLines (blocksLeaves it)
  gaps : it'.map TreeBlock.gap = it.map TreeBlock.gap
  kinds : it'.map ends = it.map ends
  again : blocksText cx (d + 1) none it' = blocksText cx (d + 1) none it
  shaped : shapedBlocks it' = true
  inItem : it'.all inItem = true
  chars : ∀ l ∈ x :: xs, '\n' ∉ l ∧ '\r' ∉ l ∧ '\x00' ∉ l
  tabs : NoTabs xs
  first : TextLine x
  last : ∀ l ∈ xs.getLast?, blankLine l = false
  reads : ∀ j, Reads (.none false) (x :: xs ++ List.replicate j []) it'

theorem writtenItem_of {cx : Cx} {d : Nat} {p p' : TreeBlock} {bs bs' : List TreeBlock} {L M : List (List Char)}
    (hp : p.isPara = true) (hg : p.gap = false) (hb : WrittenTree cx (d + 1) p p' L) (hbs : WrittenBlocks cx (d + 1) p bs bs' M) :
    ∃ x xs, WrittenItem cx d (p :: bs) (p' :: bs') x xs := by
  obtain ⟨x, L', hL⟩ := List.exists_cons_of_ne_nil hb.ne
  have hx : TextLine x := hb.para hp x (by rw [hL]; rfl)
  have hpara : ends p = false ∧ TreeBlock.isList p = false ∧ inItem p = true := by
    cases p with
    | quote _ _ => simp [TreeBlock.isPara] at hp
    | table _ _ _ => simp [TreeBlock.isPara] at hp
    | list _ _ _ _ => simp [TreeBlock.isPara] at hp
    | leaf _ b => cases b <;> simp [TreeBlock.isPara] at hp; exact ⟨rfl, rfl, rfl⟩
  have hfirst : ∀ (q : TreeBlock) (n : Nat), TreeBlock.isList q = false → TreeBlock.isCode q = false → inItem q = true → between n none q = [] := by
    intro q n h1 h2 h3
    cases q with
    | quote _ _ => simp [inItem] at h3
    | table _ _ _ => simp [inItem] at h3
    | list _ _ _ _ => simp [TreeBlock.isList] at h1
    | leaf _ b => cases b <;> simp [inItem, TreeBlock.isCode] at h2 h3 <;> rfl
  have hcode : TreeBlock.isCode p = false := by
    have := hpara.1
    simp only [ends, Bool.or_eq_false_iff] at this
    exact this.2
  refine ⟨x, L' ++ M, ?_, sameBlocks_cons hb.same hbs.same, fun hwo => by rw [FitsBlocks]; exact ⟨hb.fit hwo, hbs.fit hwo⟩, fun hwo hfit => ?_, ?_, ?_, ?_, ?_, ?_, ?_, ?_, hx, ?_, ?_⟩
  · have h1 := hb.text
    have h2 := hbs.text
    rw [closed, hpara.1, hpara.2.1] at h1
    rw [hpara.1] at h2
    simp only [Bool.false_eq_true, if_false] at h1 h2
    rw [hL, List.map_cons, unlines_cons, shift_of_ne (textLine_ne_nil hx), List.append_assoc, List.append_assoc] at h1
    have h3 := List.append_cancel_left h1
    rw [blocksText, hfirst p _ hpara.2.1 hcode hpara.2.2, List.nil_append, List.append_assoc, h2, ← List.append_assoc, h3,
      List.map_append, unlines_append']
    simp
  · rw [FitsBlocks] at hfit
    rw [blocksLeaves, blocksLeaves, paragraphLines_append, paragraphLines_append, hb.keep hwo hfit.1, hbs.keep hwo hfit.2]
  · simp [hb.gap, hbs.gaps]
  · simp [ends, hb.isList, hb.isCode]; exact hbs.kinds
  · rw [blocksText, blocksText, hbs.again p' hb.isCode hb.isList, hb.again, hfirst p _ hpara.2.1 hcode hpara.2.2,
      hfirst p' _ (by rw [hb.isList]; exact hpara.2.1) (by rw [hb.isCode]; exact hcode) hb.inItem]
  · rw [shapedBlocks, hb.shaped, hbs.shaped]; rfl
  · rw [List.all_cons, hb.inItem, hbs.inItem]; rfl
  · intro l hl
    rw [← List.cons_append, ← hL] at hl
    rcases List.mem_append.1 hl with h | h
    · exact hb.chars l h
    · exact hbs.chars l h
  · refine noTabs_append ?_ hbs.tabs
    intro l hl
    exact hb.tabs l (by rw [hL]; simp [hl])
  · intro l hl
    cases hM : M with
    | cons m M' => rw [getLast_append (by rw [hM]; simp)] at hl; exact hbs.last l hl
    | nil =>
      rw [hM, List.append_nil] at hl
      refine hb.last l ?_
      rw [hL]
      cases L' with
      | nil => cases hl
      | cons y L' => rw [List.getLast?_cons_cons]; exact hl
  · intro j
    obtain ⟨n, rest, he, hr, ha⟩ := hbs.reads j
    have := hb.reads n rest bs' hr ha
    rw [hg, ← he, hL] at this
    simpa using this

/-- Lines after a list. -/
def AfterList (number : Option Nat) (n : Nat) (rest : List (List Char)) : Prop :=
  rest = [] ∨ ∃ l r, rest = l :: r ∧ blankLine l = false ∧ indentOf l < 4 ∧
    0 < n ∧ ∀ s, itemStart l = some s → s.number.isSome ≠ number.isSome

/-- The empty lines before an item. -/
def itemGap (tight : Bool) (k : Nat) : Nat := if !tight && decide (1 < k) then 1 else 0

/-- What is known of the lines of items. -/
structure WrittenItems (cx : Cx) (d : Nat) (type : ListType) (tight : Bool) (k : Nat) (items items' : List (List TreeBlock))
    (L : List (List Char)) : Prop where
  text : itemsText cx d type tight k items = unlines ((List.replicate (itemGap tight k) [] ++ L).map (shift (4 * d)))
  head : ∃ x L', L = (treeMarker cx.opts type (d + 1) k ++ x) :: L' ∧ TextLine x
  same : SameItems cx.opts.defaultLanguage items items'
  fit : FitWidth cx.width → FitsItems (FitsOrWord cx.width cx.opts.lineWidth) 0 (d + 1) items'
  keep : FitWidth cx.width → FitsItems (Fits cx.width cx.opts.lineWidth) 0 (d + 1) items → paragraphLines (itemsLeaves items') = paragraphLines (itemsLeaves items)
  length : items'.length = items.length
  gaps : gaps items' = gaps items
  again : itemsText cx d type tight k items' = itemsText cx d type tight k items
  shaped : shapedItems items' = true
  chars : ∀ l ∈ L, '\n' ∉ l ∧ '\r' ∉ l ∧ '\x00' ∉ l
  tabs : NoTabs L
  last : ∀ l ∈ L.getLast?, blankLine l = false
  reads : ∀ (s : ItemStart) n rest, s.marker = (treeStart cx.opts type (d + 1) k).marker →
    s.number.isSome = (treeStart cx.opts type (d + 1) k).number.isSome → AfterList s.number n rest →
    ReadsItems s (L ++ (List.replicate n [] ++ rest)) ⟨items', !tight && decide (2 ≤ items.length), decide (0 < n), rest⟩

theorem outside_of {number : Option Nat} {n : Nat} {rest : List (List Char)} (h : AfterList number n rest) : Outside rest := by
  rcases h with h | ⟨l, r, h, h1, h2, _⟩
  · exact .inl h
  · exact .inr ⟨l, r, h, h1, h2⟩

theorem any_ends_congr {it it' : List TreeBlock} (h : it'.map ends = it.map ends) : it'.getLast?.any ends = it.getLast?.any ends := by
  have e : ∀ l : List TreeBlock, l.getLast?.any ends = (l.map ends).getLast?.any id := by
    intro l
    rw [List.getLast?_map]
    cases l.getLast? <;> rfl
  rw [e, e, h]

theorem any_gap_congr {it it' : List TreeBlock} (h : it'.map TreeBlock.gap = it.map TreeBlock.gap) : it'.any TreeBlock.gap = it.any TreeBlock.gap := by
  have e : ∀ l : List TreeBlock, l.any TreeBlock.gap = (l.map TreeBlock.gap).any id := by
    intro l
    rw [List.any_map]; rfl
  rw [e, e, h]

/-- The text of an item. -/
theorem itemText_eq {cx : Cx} (ho : NestedOptions cx.opts) {d : Nat} {type : ListType} {k : Nat} (hk : type = .bullet ∨ k < 100)
    {it it' : List TreeBlock} {x : List Char} {xs : List (List Char)} (h : WrittenItem cx d it it' x xs) :
    spaces (4 * d) ++ treeMarker cx.opts type (d + 1) k ++ blocksText cx (d + 1) none it ++ (if it.getLast?.any ends then [] else ['\n']) =
      unlines ((hang (treeMarker cx.opts type (d + 1) k) (x :: xs)).map (shift (4 * d))) := by
  have hne : treeMarker cx.opts type (d + 1) k ++ x ≠ [] := by simp [textLine_ne_nil h.first]
  rw [List.append_assoc, h.text, hang, List.map_cons, unlines_cons, shift_of_ne hne, List.map_map]
  have : (fun l => shift (4 * d) (shift 4 l)) = shift (4 * (d + 1)) := by
    funext l
    rw [shift_shift]; congr 1
  rw [show (shift (4 * d) ∘ shift 4) = shift (4 * (d + 1)) from this]
  simp

theorem itemChars {cx : Cx} (ho : NestedOptions cx.opts) {d : Nat} {type : ListType} {k : Nat} (hk : type = .bullet ∨ k < 100)
    {it it' : List TreeBlock} {x : List Char} {xs : List (List Char)} (h : WrittenItem cx d it it' x xs) :
    (∀ l ∈ hang (treeMarker cx.opts type (d + 1) k) (x :: xs), '\n' ∉ l ∧ '\r' ∉ l ∧ '\x00' ∉ l) ∧
    NoTabs (hang (treeMarker cx.opts type (d + 1) k) (x :: xs)) ∧
    ∀ l ∈ (hang (treeMarker cx.opts type (d + 1) k) (x :: xs)).getLast?, blankLine l = false := by
  have hm := treeMarker_char ho type (d + 1) hk
  have hblank : ∀ l : List Char, blankLine (shift 4 l) = true → blankLine l = true := by
    intro l hl
    by_cases h0 : l = []
    · rw [h0]; rfl
    · rw [shift_of_ne h0] at hl
      unfold blankLine at hl ⊢
      rw [List.all_append, Bool.and_eq_true] at hl
      exact hl.2
  have hsub : ∀ (l : List Char) (c : Char), c ∈ shift 4 l → c = ' ' ∨ c ∈ l := by
    intro l c hc
    by_cases h0 : l = []
    · rw [h0, shift_nil] at hc; cases hc
    · rw [shift_of_ne h0] at hc
      rcases List.mem_append.1 hc with hc | hc
      · exact .inl (List.eq_of_mem_replicate hc)
      · exact .inr hc
  have hfb : blankLine (treeMarker cx.opts type (d + 1) k ++ x) = false :=
    (itemStart_column (itemLine_marker ho type (d + 1) hk h.first).start).1
  refine ⟨?_, ?_, ?_⟩
  · intro l hl
    rw [hang] at hl
    rcases List.mem_cons.1 hl with rfl | hl
    · have hx := h.chars x (by simp)
      simp only [List.mem_append, not_or]
      exact ⟨⟨fun e => (hm _ e).1 rfl, hx.1⟩, ⟨fun e => (hm _ e).2.1 rfl, hx.2.1⟩, fun e => (hm _ e).2.2.1 rfl, hx.2.2⟩
    · obtain ⟨y, hy, rfl⟩ := List.mem_map.1 hl
      have hyc := h.chars y (by simp [hy])
      have no : ∀ c : Char, c ≠ ' ' → c ∉ y → c ∉ shift 4 y := by
        intro c h1 h2 h3
        rcases hsub y c h3 with h3 | h3
        · exact h1 h3
        · exact h2 h3
      exact ⟨no _ (by decide) hyc.1, no _ (by decide) hyc.2.1, no _ (by decide) hyc.2.2⟩
  · intro l hl hb
    rw [hang] at hl
    rcases List.mem_cons.1 hl with rfl | hl
    · rw [show blankLine _ = true from hb] at hfb; cases hfb
    · obtain ⟨y, hy, rfl⟩ := List.mem_map.1 hl
      intro e
      rcases hsub y _ e with e | e
      · exact absurd e (by decide)
      · exact h.tabs y hy (hblank y hb) e
  · intro l hl
    rw [hang] at hl
    cases xs with
    | nil =>
      simp only [List.map_nil, List.getLast?_singleton, Option.mem_some] at hl
      rw [← hl]; exact hfb
    | cons y ys =>
      rw [List.map_cons, List.getLast?_cons_cons, ← List.map_cons, List.getLast?_map] at hl
      cases hg : (y :: ys).getLast? with
      | none => simp at hg
      | some z =>
        rw [hg, Option.map_some, Option.mem_some] at hl
        have := h.last z (by rw [hg]; rfl)
        cases hb : blankLine l with
        | false => rfl
        | true => rw [← hl] at hb; rw [hblank z hb] at this; cases this

theorem treeStart_content (o : Options) (type : ListType) (depth k : Nat) : (treeStart o type depth k).content = 4 := by cases type <;> rfl

/-- The last item. -/
theorem writtenItems_one {cx : Cx} (ho : NestedOptions cx.opts) {d : Nat} {type : ListType} (tight : Bool) {k : Nat} (hk : type = .bullet ∨ k < 100)
    {it it' : List TreeBlock} {x : List Char} {xs : List (List Char)} (h : WrittenItem cx d it it' x xs) :
    WrittenItems cx d type tight k [it] [it'] (hang (treeMarker cx.opts type (d + 1) k) (x :: xs)) where
  text := by
    have := itemText_eq ho hk h
    rw [itemsText, itemsText, List.append_nil, List.map_append, map_shift_blanks, unlines_append', ← this]
    unfold itemGap
    cases hc : (!tight && decide (1 < k)) <;> simp [unlines] <;> rfl
  head := ⟨x, _, rfl, h.first⟩
  same := by rw [SameItems, SameItems]; exact ⟨h.same, trivial⟩
  fit := fun hwo => by rw [FitsItems, FitsItems]; exact ⟨h.fit hwo, trivial⟩
  keep := fun hwo hfit => by
    rw [FitsItems] at hfit
    simp only [itemsLeaves, List.append_nil, h.keep hwo hfit.1]
  length := rfl
  gaps := by simp [gaps, any_gap_congr h.gaps]
  again := by
    rw [itemsText, itemsText, h.again]
    have := any_ends_congr h.kinds
    unfold ends at this
    rw [this]
    rfl
  shaped := by rw [shapedItems, h.inItem, h.shaped]; rfl
  chars := (itemChars ho hk h).1
  tabs := (itemChars ho hk h).2.1
  last := (itemChars ho hk h).2.2
  reads := by
    intro s n rest hm hn ha
    have hil := itemLine_marker ho type (d + 1) hk h.first
    have hlines := itemLines_shift n (outside_of ha) xs
    have hc := treeStart_content cx.opts type (d + 1) k
    have hdrop : (treeMarker cx.opts type (d + 1) k ++ x).drop 4 = x := by
      rw [← treeMarker_length ho type (d + 1) hk, List.drop_left]
    have := readsItems_last (s := s) hil.start (L := xs.map (shift 4) ++ (List.replicate n [] ++ rest)) (body := xs ++ List.replicate n []) (after := rest) (by rw [hc]; exact hlines)
      (bs := it') (by rw [hc, hdrop]; exact h.reads n) (noDefinition_of_inItem h.inItem) ?_
    · rw [last_blank n h.last] at this
      simpa [hang] using this
    · rcases ha with ha | ⟨l, r, ha, _, _, h0, hs⟩
      · exact .inl ha
      · refine .inr ⟨l, r, ha, ?_, .inl ?_⟩
        · cases ht : itemStart l with
          | none => rfl
          | some t =>
            have := hs t ht
            simp only [Option.any_some, sameList, Bool.and_eq_false_iff]
            right
            revert this
            cases s.number.isSome <;> cases t.number.isSome <;> decide
        · rw [last_blank n h.last]; simpa using h0

/-- An item with others after it. -/
theorem writtenItems_cons {cx : Cx} (ho : NestedOptions cx.opts) {d : Nat} {type : ListType} {tight : Bool} {k : Nat} (hk1 : 1 ≤ k)
    (hk : type = .bullet ∨ k + 1 < 100)
    {it it' : List TreeBlock} {x : List Char} {xs : List (List Char)} (h : WrittenItem cx d it it' x xs)
    {items items' : List (List TreeBlock)} (h0 : items ≠ []) {L : List (List Char)} (hi : WrittenItems cx d type tight (k + 1) items items' L) :
    WrittenItems cx d type tight k (it :: items) (it' :: items')
      (hang (treeMarker cx.opts type (d + 1) k) (x :: xs) ++ (List.replicate (itemGap tight (k + 1)) [] ++ L)) where
  text := by
    have hk' : type = .bullet ∨ k < 100 := hk.imp_right (by omega)
    have := itemText_eq ho hk' h
    rw [itemsText, hi.text]
    simp only [List.map_append, map_shift_blanks, unlines_append', ← this]
    unfold itemGap
    cases hc : (!tight && decide (1 < k)) <;> simp [unlines] <;> rfl
  head := ⟨x, _, rfl, h.first⟩
  same := by rw [SameItems]; exact ⟨h.same, hi.same⟩
  fit := fun hwo => by rw [FitsItems]; exact ⟨h.fit hwo, hi.fit hwo⟩
  keep := fun hwo hfit => by
    rw [FitsItems] at hfit
    rw [itemsLeaves, itemsLeaves, paragraphLines_append, paragraphLines_append, h.keep hwo hfit.1, hi.keep hwo hfit.2]
  length := by simp [hi.length]
  gaps := by
    have := hi.gaps
    simp only [gaps] at this
    simp only [gaps, List.any_cons, any_gap_congr h.gaps, this]
  again := by
    rw [itemsText, itemsText, h.again, hi.again]
    have := any_ends_congr h.kinds
    unfold ends at this
    rw [this]
  shaped := by rw [shapedItems, h.inItem, h.shaped, hi.shaped]; rfl
  chars := by
    intro l hl
    rcases List.mem_append.1 hl with hl | hl
    · exact (itemChars ho (hk.imp_right (by omega)) h).1 l hl
    · rcases List.mem_append.1 hl with hl | hl
      · exact chars_blanks _ l hl
      · exact hi.chars l hl
  tabs := noTabs_append (itemChars ho (hk.imp_right (by omega)) h).2.1 (noTabs_append (noTabs_blanks _) hi.tabs)
  last := by
    intro l hl
    obtain ⟨y, L', hL, _⟩ := hi.head
    have h1 : L ≠ [] := by rw [hL]; simp
    rw [getLast_append (by simp [h1]), getLast_append h1] at hl
    exact hi.last l hl
  reads := by
    intro s n rest hm hn ha
    have hk' : type = .bullet ∨ k < 100 := hk.imp_right (by omega)
    have hil := itemLine_marker ho type (d + 1) hk' h.first
    obtain ⟨y, L', hL, hy⟩ := hi.head
    have hil2 := itemLine_marker ho type (d + 1) hk hy
    have hcol := itemStart_column hil2.start
    have hc := treeStart_content cx.opts type (d + 1) k
    have hdrop : (treeMarker cx.opts type (d + 1) k ++ x).drop 4 = x := by
      rw [← treeMarker_length ho type (d + 1) hk', List.drop_left]
    have hm2 : s.marker = (treeStart cx.opts type (d + 1) (k + 1)).marker := by rw [hm]; cases type <;> rfl
    have hn2 : s.number.isSome = (treeStart cx.opts type (d + 1) (k + 1)).number.isSome := by rw [hn]; cases type <;> rfl
    have hr := hi.reads s n rest hm2 hn2 ha
    rw [hL, List.cons_append] at hr
    have hlines := itemLines_shift (itemGap tight (k + 1)) (rest := (treeMarker cx.opts type (d + 1) (k + 1) ++ y) :: (L' ++ (List.replicate n [] ++ rest)))
      (.inr ⟨_, _, rfl, hcol.1, hcol.2⟩) xs
    have := readsItems_more (s := s) hil.start (body := xs ++ List.replicate (itemGap tight (k + 1)) [])
      (m := treeMarker cx.opts type (d + 1) (k + 1) ++ y) (after := L' ++ (List.replicate n [] ++ rest)) (L := xs.map (shift 4) ++ (List.replicate (itemGap tight (k + 1)) [] ++
        (treeMarker cx.opts type (d + 1) (k + 1) ++ y) :: (L' ++ (List.replicate n [] ++ rest)))) (by rw [hc]; exact hlines)
      (bs := it') (by rw [hc, hdrop]; exact h.reads (itemGap tight (k + 1))) (noDefinition_of_inItem h.inItem) (by
        rw [hil2.start]
        simp only [Option.any_some, sameList, Bool.and_eq_true, decide_eq_true_eq, beq_iff_eq]
        exact ⟨hm2, hn2⟩) hr
    rw [last_blank _ h.last] at this
    have hlen : 2 ≤ (it :: items).length := by
      have := List.length_pos_iff.2 h0
      simp; omega
    have hloose : (decide (0 < itemGap tight (k + 1)) || (!tight && decide (2 ≤ items.length))) = (!tight && decide (2 ≤ (it :: items).length)) := by
      rw [decide_eq_true hlen]
      unfold itemGap
      have : 1 < k + 1 := by omega
      rw [decide_eq_true this]
      cases tight <;> simp
    rw [hloose] at this
    rw [hL]
    simpa [hang] using this

mutual

theorem written_tree {cx : Cx} (ho : NestedOptions cx.opts) : ∀ (b : TreeBlock) (d : Nat), (TreeBlock.isList b = true ∨ 0 < d) →
    (∀ l ∈ leaves b, LeafGood cx l) → inItem b = true → regular b = true → Well b → ∃ b' L, WrittenTree cx d b b' L
  | .leaf g b, d, hd, hl, hi, _, _ => by
    obtain ⟨e, rfl⟩ : ∃ e, d = e + 1 := ⟨d - 1, by
      rcases hd with h | h
      · simp [TreeBlock.isList] at h
      · omega⟩
    have hb := hl b (by simp [leaves])
    cases b with
    | heading _ _ => simp [inItem] at hi
    | definition _ _ => simp [inItem] at hi
    | rule => simp [inItem] at hi
    | paragraph ls => exact written_tree_paragraph cx e g hb.valid
    | code info ls => exact written_tree_code ho.toCoreOptions e g hb
  | .quote _ _ _, _, _, _, hi, _, _ => by simp [inItem] at hi
  | .table _ _ _, _, _, _, hi, _, _ => by simp [inItem] at hi
  | .list g start t items, d, _, hl, _, hr, hw => by
    rw [leaves] at hl
    rw [regular, Bool.and_eq_true] at hr
    rw [Well] at hw
    have hstart : listType start = .bullet ∨ 1 + items.length ≤ 100 := by
      have := hr.1
      simp only [Bool.or_eq_true, Bool.and_eq_true, decide_eq_true_eq] at this
      rcases this with h | h
      · left; rw [h]; rfl
      · right; omega
    obtain ⟨items', L, h⟩ := written_items ho items d (listType start) t 1 (by omega) hstart hw.1 hl hr.2 hw.2.2.2
    obtain ⟨x, L', hL, hx⟩ := h.head
    have hnum : (treeStart cx.opts (listType start) (d + 1) 1).number = start := by
      have := hr.1
      simp only [Bool.or_eq_true, Bool.and_eq_true, decide_eq_true_eq] at this
      rcases this with h | h
      · rw [h]; rfl
      · rw [h.1]; rfl
    have hk : listType start = .bullet ∨ 1 < 100 := .inr (by decide)
    have hil := itemLine_marker ho (listType start) (d + 1) hk hx
    have hg0 : itemGap t 1 = 0 := by simp [itemGap]
    refine ⟨.list g start t items', L, ?_, ?_, fun hwo => by rw [FitsTree]; exact h.fit hwo, fun hwo hfit => by rw [FitsTree] at hfit; rw [leaves, leaves]; exact h.keep hwo hfit, rfl, rfl, rfl, ?_, ?_, rfl, h.chars, h.tabs, by rw [hL]; simp, h.last, by simp [TreeBlock.isPara],
      by simp [TreeBlock.isList], ?_, ?_⟩
    · have := h.text
      rw [hg0, List.replicate_zero, List.nil_append] at this
      rw [← this]
      simp [closed, ends, TreeBlock.isList, treeText]
    · rw [SameTree]; exact ⟨rfl, rfl, h.same⟩
    · rw [treeText, treeText]; exact h.again
    · rw [shaped]; exact h.shaped
    · rintro _ start' _ _ e l hl
      cases e
      rw [hL, List.head?_cons, Option.mem_some] at hl
      rw [← hl]
      exact ⟨_, hil, hnum⟩
    · intro n rest bs hr2 ha
      have hri := h.reads (treeStart cx.opts (listType start) (d + 1) 1) n rest rfl rfl (by
        rw [hnum]
        rcases ha with ha | ⟨l, r, ha, h1, h2, h3, h4⟩
        · exact .inl ha
        · exact .inr ⟨l, r, ha, h1, h2, h3, h4⟩)
      rw [hL, List.cons_append] at hri
      have := reads_list (g := g) hil hri (bs := bs) hr2
      have ht : (!(!t && decide (2 ≤ items.length)) && !gaps items') = t := by
        rw [h.gaps]
        cases t with
        | true => simp [hw.2.1 rfl]
        | false =>
          rcases hw.2.2.1 rfl with h | h
          · simp [h]
          · simp [h]
      simp only [ht, hnum] at this
      rw [hL]
      exact this

theorem written_items {cx : Cx} (ho : NestedOptions cx.opts) : ∀ (items : List (List TreeBlock)) (d : Nat) (type : ListType) (tight : Bool) (k : Nat),
    1 ≤ k → (type = .bullet ∨ k + items.length ≤ 100) → items ≠ [] → (∀ l ∈ itemsLeaves items, LeafGood cx l) → regularItems items = true →
    WellItems items → ∃ items' L, WrittenItems cx d type tight k items items' L
  | [], _, _, _, _, _, _, h0, _, _, _ => absurd rfl h0
  | it :: its, d, type, tight, k, hk1, hk, _, hl, hr, hw => by
    rw [itemsLeaves] at hl
    rw [regularItems, Bool.and_eq_true, Bool.and_eq_true, Bool.and_eq_true] at hr
    rw [WellItems] at hw
    obtain ⟨it', x, xs, h⟩ := written_item ho it d (fun l hm => hl l (by simp [hm])) hr.1.1.1 hr.1.1.2 hr.1.2 hw.1 hw.2.2.1
    cases its with
    | nil => exact ⟨_, _, writtenItems_one ho tight (hk.imp_right (by simp; omega)) h⟩
    | cons it2 its =>
      obtain ⟨items', L, hi⟩ := written_items ho (it2 :: its) d type tight (k + 1) (by omega) (hk.imp_right (by simp; omega)) (by simp)
        (fun l hm => hl l (by simp [hm])) hr.2 hw.2.2.2
      exact ⟨_, _, writtenItems_cons ho hk1 (hk.imp_right (by simp; omega)) h (by simp) hi⟩

theorem written_item {cx : Cx} (ho : NestedOptions cx.opts) : ∀ (it : List TreeBlock) (d : Nat),
    (∀ l ∈ blocksLeaves it, LeafGood cx l) → it.head?.any TreeBlock.isPara = true → follows mayStandAfter it = true → regularBlocks it = true →
    it.head?.any TreeBlock.gap = false → WellBlocks it → ∃ it' x xs, WrittenItem cx d it it' x xs
  | [], _, _, hp, _, _, _, _ => by simp at hp
  | p :: bs, d, hl, hp, hf, hr, hg, hw => by
    rw [blocksLeaves] at hl
    rw [regularBlocks, Bool.and_eq_true] at hr
    rw [WellBlocks] at hw
    simp only [List.head?_cons, Option.any_some] at hp hg
    have hin : inItem p = true := by
      cases p with
      | quote _ _ => simp [TreeBlock.isPara] at hp
      | table _ _ _ => simp [TreeBlock.isPara] at hp
      | list _ _ _ _ => rfl
      | leaf _ b => cases b <;> simp [TreeBlock.isPara] at hp; rfl
    obtain ⟨p', L, h1⟩ := written_tree ho p (d + 1) (.inr (by omega)) (fun l hm => hl l (by simp [hm])) hin hr.1 hw.1
    obtain ⟨bs', M, h2⟩ := written_blocks ho bs d p (fun l hm => hl l (by simp [hm])) hf hr.2 hw.2
    obtain ⟨x, xs, h⟩ := writtenItem_of hp hg h1 h2
    exact ⟨_, x, xs, h⟩

theorem written_blocks {cx : Cx} (ho : NestedOptions cx.opts) : ∀ (bs : List TreeBlock) (d : Nat) (prev : TreeBlock),
    (∀ l ∈ blocksLeaves bs, LeafGood cx l) → follows mayStandAfter (prev :: bs) = true → regularBlocks bs = true → WellBlocks bs →
    ∃ bs' M, WrittenBlocks cx (d + 1) prev bs bs' M
  | [], d, prev, _, _, _, _ => ⟨_, _, writtenBlocks_nil cx (d + 1) prev⟩
  | b :: bs, d, prev, hl, hf, hr, hw => by
    rw [blocksLeaves] at hl
    rw [regularBlocks, Bool.and_eq_true] at hr
    rw [WellBlocks] at hw
    rw [follows, Bool.and_eq_true] at hf
    obtain ⟨b', L, h1⟩ := written_tree ho b (d + 1) (.inr (by omega)) (fun l hm => hl l (by simp [hm])) (mayStandAfter_inItem hf.1) hr.1 hw.1
    obtain ⟨bs', M, h2⟩ := written_blocks ho bs d b (fun l hm => hl l (by simp [hm])) hf.2 hr.2 hw.2
    exact ⟨_, _, writtenBlocks_cons hf.1 hr.1 h1 h2⟩

end

end Hongdown.Model
