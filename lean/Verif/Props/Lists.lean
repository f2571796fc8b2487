import Verif.Props.Table
import Verif.Lemmas.Lists
import Verif.Lemmas.Config
import Verif.Props.Frame

/-!
# Lists: C43, C72, C73
-/

namespace Hongdown.Props
open Model Spec

/-! ### C43: list markers -/

/-- **C43.** The output of a list is what its items write, one after the other. Item `k` starts
with the marker for `k` at its nesting depth, after the configured indentation for every list
around it; in a block quote the quote marker comes first, and in a loose list a blank line stands
between two items. Tasks have their check box. -/
theorem c43_list (cx : Cx) (type : ListType) (tight : Bool) (p : Pos) (cs : List Node) (nb : Bool)
    (st : St) (hw : wellPlaced (.mk (.list type tight) p cs) = true)
    (hi : cs.all isItemLike = true) (hd : st.inDescriptionDetails = false) :
    let depth := st.listDepth + 1
    let step := if type = .ordered then cx.opts.orderedListIndentWidth else cx.opts.indentWidth
    ∃ parts : List (List Char), parts.length = cs.length ∧
      (ser cx (.mk (.list type tight) p cs) nb st).output = st.output ++ parts.flatten ∧
      ∀ i n, cs[i]? = some n → ∃ m box body, parts[i]? =
          some ((if tight = false ∧ i ≠ 0 then ['\n'] else []) ++
            (if st.inBlockQuote = true then ['>', ' '] else []) ++
            List.replicate (step * (depth - 1)) ' ' ++ m ++ box ++ body) ∧
        IsMarker cx.opts type depth (i + 1) m ∧ IsBox n box := by
  intro depth step
  rw [wellPlaced, Bool.and_eq_true, Bool.and_eq_true] at hw
  obtain ⟨parts, h1, h2, h3⟩ := items_out cx type tight st.inBlockQuote depth cs
    { st with
      listType := some type
      listTight := tight
      listItemIndex := 0
      listDepth := st.listDepth + 1
      orderedListMaxItems := if type = .ordered then
          ((serKids cx cs).filter fun k => k.node.isItem).length
        else st.orderedListMaxItems } hw.2 hi rfl rfl rfl rfl hd
  refine ⟨parts, h1, by simp only [ser, dispatch, serList]; exact h2, fun i n hn => ?_⟩
  obtain ⟨m, box, body, e, hm, hb⟩ := h3 i n hn
  simp only [Nat.zero_add] at e hm
  refine ⟨m, box, body, ?_, hm, hb⟩
  rw [e, leadOf]
  simp only [spaces]
  have : (!tight && decide (1 < i + 1)) = true ↔ tight = false ∧ i ≠ 0 := by
    cases tight <;> simp
    omega
  simp only [this, step]

/-- Ten items in a list in a list in a block quote: the number takes a column of the padding. -/
def exTen : Node :=
  let p : Pos := ⟨1, 1, 1, 1⟩
  let par (s : String) : Node := .mk .paragraph p [.mk (.text s.toList) p []]
  .mk (.list .ordered false) p (.mk (.taskItem (some 'x')) p [par "a"] ::
    List.replicate 9 (.mk .item p [par "b"]))

example : wellPlaced exTen = true := by decide +kernel
example : (ser codeCx exTen false
      { inBlockQuote := true, listType := some .bullet, listDepth := 1 }).output =
    ("> " ++ "    1)  [x] a\n\n>     2)  b\n\n>     3)  b\n\n>     4)  b\n\n>     5)  b\n\n" ++
      ">     6)  b\n\n>     7)  b\n\n>     8)  b\n\n>     9)  b\n\n>     10) b\n").toList := by
  decide +kernel

/-- **C43.** How a marker reads. A bullet marker starts an item with the configured marker
character, and the content starts right after the marker, if the options are in range and ask for
a space after the marker. -/
theorem c43_bullet_reads_partial (o : Options) (depth k i : Nat) (m text : List Char)
    (ho : OptionsOk o) (hsp : 1 ≤ o.trailingSpaces) (hm : IsMarker o .bullet depth k m)
    (ht : text ≠ []) (hs : text.head? ≠ some ' ') :
    readItem (List.replicate i ' ' ++ m ++ text) =
      some ⟨i + o.leadingSpaces, none, o.unorderedMarker, i + m.length⟩ := by
  have hm : m = _ := hm
  rw [hm, readItem_bullet i _ _ _ text ho.unorderedMarker hsp
    (Nat.le_trans ho.trailingSpaces (by decide)) ht hs]
  simp only [List.length_append, List.length_replicate, List.length_cons, Option.some.injEq,
    ItemStart.mk.injEq, true_and]
  omega

/-- **C43.** The same for ordered lists: the number is read back, if it has at most nine digits
and the padding is at most four spaces. -/
theorem c43_ordered_reads_partial (o : Options) (depth k i : Nat) (m text : List Char)
    (ho : OptionsOk o) (hk1 : 1 ≤ k)
    (hk : k < 10 ^ 9) (hw : o.orderedListIndentWidth ≤ 6)
    (hm : IsMarker o .ordered depth k m) (ht : text ≠ []) (hs : text.head? ≠ some ' ') :
    readItem (List.replicate i ' ' ++ m ++ text) =
      some ⟨i, some k, if depth % 2 = 1 then o.oddLevelMarker else o.evenLevelMarker,
        i + m.length⟩ := by
  obtain ⟨digits, gap, e, hd, h0, h1, h2⟩ := hm
  have hne := (digits_of_decimal hd).1
  have hpos : 0 < digits.length := List.length_pos_iff.mpr hne
  have hlen : m.length = digits.length + 1 + gap := by
    rw [e]; simp only [List.length_append, List.length_cons, List.length_replicate]; omega
  have hg : 1 ≤ gap ∧ gap ≤ 4 := by
    by_cases h : digits.length + 2 ≤ o.orderedListIndentWidth
    · have := h1 h; omega
    · have := h2 (by omega); omega
  have h9 : digits.length ≤ 9 := decimal_length hd (h0 (by omega)) hk
  rw [hlen, e, readItem_ordered i gap k digits _ text hd h9 ?_ hg.1 hg.2 ht hs]
  · simp only [Option.some.injEq, ItemStart.mk.injEq, true_and]; omega
  · split
    · exact ho.oddMarker
    · exact ho.evenMarker

/-- The default options are in range. -/
theorem exOptions_ok : OptionsOk defaultOptions where
  lineWidth := by decide
  leadingSpaces := by decide
  trailingSpaces := by decide
  indentWidth := by decide
  orderedIndentWidth := by decide
  unorderedMarker := .inl rfl
  oddMarker := .inl rfl
  evenMarker := .inr rfl
  fenceChar := .inl rfl
  minFenceLength := by decide
  style := defaultStyle_ok
  breakSpaces := by decide
  enDash := by intro s hs; cases hs
  emDash := emDefault_ok

/-- **C43 is false** with no space after the marker, a setting that the configuration accepts
(src/config.rs:284-310): what is written is no item any more. -/
theorem c43_bullet_reads_false : ¬ ∀ (o : Options) (depth k i : Nat) (m text : List Char),
    OptionsOk o → IsMarker o .bullet depth k m → text ≠ [] → text.head? ≠ some ' ' →
    (readItem (List.replicate i ' ' ++ m ++ text)).isSome = true := by
  intro h
  have := h { defaultOptions with trailingSpaces := 0 } 1 1 0 " -".toList "a".toList
    { exOptions_ok with trailingSpaces := by decide } (show _ = _ by decide) (by decide) (by decide)
  exact absurd this (by decide)

/-- **C43 is false** with a wide indentation for ordered lists, which the configuration accepts
(src/config.rs:330-350): the content does not start after the padding, but one space after the
delimiter, as indented code. -/
theorem c43_ordered_reads_false : ¬ ∀ (o : Options) (depth k i : Nat) (m text : List Char),
    OptionsOk o → 1 ≤ k → k < 10 ^ 9 → IsMarker o .ordered depth k m → text ≠ [] →
    text.head? ≠ some ' ' →
    (readItem (List.replicate i ' ' ++ m ++ text)).map (·.content) = some (i + m.length) := by
  intro h
  have := h { defaultOptions with orderedListIndentWidth := 8 } 1 1 0 "1.      ".toList "a".toList
    { exOptions_ok with orderedIndentWidth := by decide } (by decide) (by decide)
    ⟨['1'], 6, by decide, by decide, by decide, by decide, by decide⟩ (by decide) (by decide)
  exact absurd this (by decide)

/-- A list item in a line. -/
def exItem (cs : List Node) : Node := .mk .item ⟨1, 1, 1, 1⟩ cs

/-- The lists of the examples. -/
def exList (type : ListType) (items : List (List Node)) : Node :=
  .mk (.list type true) ⟨1, 1, 1, 1⟩ (items.map exItem)

example : (formatDoc { codeCx with opts := { defaultOptions with trailingSpaces := 0 } }
    (exDoc [exList .bullet [[exPar [exText "a"]]]])).output = " -a\n".toList := by decide +kernel
example : (formatDoc { codeCx with opts := { defaultOptions with orderedListIndentWidth := 8 } }
    (exDoc [exList .ordered [[exPar [exText "a"]]]])).output = "1.      a\n".toList := by
  decide +kernel

/-- **C43 is false** about the start number: for the source `5. a` the number 1 is written. -/
theorem c43_start_false : ¬ ∀ (k : Nat) (line : List Char), k < 10 ^ 9 →
    readItem line = some ⟨0, some k, '.', line.length - 1⟩ →
    (readItem (formatDoc { codeCx with sourceLines := [line] }
      (exDoc [exList .ordered [[exPar [exText "a"]]]])).output).bind (·.number) = some k := by
  intro h
  have := h 5 "5. a".toList (by decide) (by decide)
  exact absurd this (by decide +kernel)

/-! ### C72: what belongs to an item stands in its column -/

theorem lead_parts (cx : Cx) (type : ListType) (n : Node) (st : St)
    (ht : st.listType = some type) (hd : st.inDescriptionDetails = false) :
    ∃ pre a m box, itemLead cx (taskOf n) { st with listItemIndex := st.listItemIndex + 1 } =
        pre ++ (if st.inBlockQuote then ['>', ' '] else []) ++ List.replicate a ' ' ++ m ++ box ∧
      (pre = [] ∨ pre = ['\n']) ∧ IsMarker cx.opts type st.listDepth (st.listItemIndex + 1) m ∧
      IsBox n box ∧
      a = (if type = .ordered then cx.opts.orderedListIndentWidth
        else cx.opts.indentWidth) * (st.listDepth - 1) ∧
      ((type = .ordered →
        (Nat.repr (st.listItemIndex + 1)).length + 2 ≤ cx.opts.orderedListIndentWidth) →
        itemIndent cx { st with listItemIndex := st.listItemIndex + 1 } =
          List.replicate (a + m.length) ' ' ∧
        m.length = if type = .ordered then cx.opts.orderedListIndentWidth
          else cx.opts.leadingSpaces + 1 + cx.opts.trailingSpaces) := by
  refine ⟨_, _, _, _, itemLead_eq cx type (taskOf n) { st with listItemIndex := st.listItemIndex + 1 } ht hd,
    ?_, itemMarker_ok cx type { st with listItemIndex := st.listItemIndex + 1 } ht hd, taskBox_ok n,
    rfl, fun hfit => ⟨
      itemIndent_eq cx type { st with listItemIndex := st.listItemIndex + 1 } ht hd hfit,
      itemMarker_length cx type { st with listItemIndex := st.listItemIndex + 1 } ht hd hfit⟩⟩
  split
  · exact .inr rfl
  · exact .inl rfl

/-- **C72.** A paragraph that is not the first block of an item begins, after a blank line and the
quote marker, in the column where the content of the item begins. Missing: items with a number
that does not fit in the configured width, see `c72_wide_false`. -/
theorem c72_paragraph_partial (cx : Cx) (v : NodeValue) (p p' : Pos) (A B ts : List Node) (nb : Bool)
    (st : St) (type : ListType)
    (hw : wellPlaced (.mk v p (A ++ .mk .paragraph p' ts :: B)) = true)
    (hi : isItemLike (.mk v p (A ++ .mk .paragraph p' ts :: B)) = true) (hA : A ≠ [])
    (ht : st.listType = some type) (hd : st.inDescriptionDetails = false)
    (hfit : type = .ordered →
      (Nat.repr (st.listItemIndex + 1)).length + 2 ≤ cx.opts.orderedListIndentWidth) :
    let q := if st.inBlockQuote then ['>', ' '] else []
    ∃ pre a m box u b st' nb', st'.output = st.output ++ pre ++ q ++ List.replicate a ' ' ++ m ++ box ++
        u ++ '\n' :: q ++ List.replicate b ' ' ∧
      (pre = [] ∨ pre = ['\n']) ∧ IsMarker cx.opts type st.listDepth (st.listItemIndex + 1) m ∧
      IsBox (.mk v p (A ++ .mk .paragraph p' ts :: B)) box ∧ b = a + m.length ∧
      (ser cx (.mk .paragraph p' ts) nb' st').output <+:
        (ser cx (.mk v p (A ++ .mk .paragraph p' ts :: B)) nb st).output := by
  intro q
  obtain ⟨prev, st', u, h1, h2, h3, h4, h5, h6, h7, h8, -⟩ := item_child cx v p A _ B nb st hw hi
  obtain ⟨n, hn, -⟩ := h8 hA
  obtain ⟨pre, a, m, box, hlead, hpre, hm, hbox, ha, hind⟩ := lead_parts cx type
    (.mk v p (A ++ .mk .paragraph p' ts :: B)) st ht hd
  rw [hlead] at h1
  rw [(hind hfit).1] at h7
  simp only [serItemChild, Node.value, hn] at h7
  refine ⟨pre, a, m, box, u ++ (if n.isCodeBlock || n.isList then [] else ['\n']), _, _, _, ?_, hpre,
    hm, hbox, rfl, h7⟩
  simp only [St.push, h1, h4, q]
  cases n.isCodeBlock || n.isList <;> simp [List.append_assoc]

theorem indentedFence (cx : Cx) (quote : Bool) (info content indent : List Char) :
    ∃ f rest, codeBlockIndentedText cx quote info content indent =
      List.replicate f cx.opts.fenceChar ++ rest ∧ cx.opts.minFenceLength ≤ f := by
  have hl : cx.opts.minFenceLength ≤
      fenceLength cx.opts.minFenceLength cx.opts.fenceChar content := by
    simp only [fenceLength]; omega
  rw [codeBlockIndentedText, openFence]
  simp only [List.append_assoc]
  exact ⟨_, _, rfl, hl⟩

/-- **C72.** A code block that is not the first block of an item: its fence stands in the column
of the content. -/
theorem c72_code_partial (cx : Cx) (v : NodeValue) (p p' : Pos) (A B ts : List Node)
    (info literal : List Char) (nb : Bool) (st : St) (type : ListType)
    (hw : wellPlaced (.mk v p (A ++ .mk (.codeBlock info literal) p' ts :: B)) = true)
    (hi : isItemLike (.mk v p (A ++ .mk (.codeBlock info literal) p' ts :: B)) = true)
    (ht : st.listType = some type) (hd : st.inDescriptionDetails = false)
    (hfit : type = .ordered →
      (Nat.repr (st.listItemIndex + 1)).length + 2 ≤ cx.opts.orderedListIndentWidth) :
    let q := if st.inBlockQuote then ['>', ' '] else []
    ∃ pre a m box u b f rest, (ser cx (.mk v p (A ++ .mk (.codeBlock info literal) p' ts :: B)) nb st).output =
        st.output ++ pre ++ q ++ List.replicate a ' ' ++ m ++ box ++
        u ++ '\n' :: '\n' :: q ++ List.replicate b ' ' ++ List.replicate f cx.opts.fenceChar ++ rest ∧
      (pre = [] ∨ pre = ['\n']) ∧ IsMarker cx.opts type st.listDepth (st.listItemIndex + 1) m ∧
      IsBox (.mk v p (A ++ .mk (.codeBlock info literal) p' ts :: B)) box ∧ b = a + m.length ∧
      cx.opts.minFenceLength ≤ f := by
  intro q
  obtain ⟨prev, st', u, h1, h2, h3, h4, h5, h6, h7, -, -⟩ := item_child cx v p A _ B nb st hw hi
  obtain ⟨pre, a, m, box, hlead, hpre, hm, hbox, ha, hind⟩ := lead_parts cx type
    (.mk v p (A ++ .mk (.codeBlock info literal) p' ts :: B)) st ht hd
  rw [hlead] at h1
  rw [(hind hfit).1] at h7
  simp only [serItemChild, Node.value, serCodeBlockIndented] at h7
  obtain ⟨w, hw'⟩ := h7
  have hout : ∀ o (s : St), (addCodeWarning s o).output = s.output := by
    intro o s; cases o <;> rfl
  obtain ⟨f, rest, hf, hfl⟩ := indentedFence cx (st'.push (['\n', '\n'] ++
    (if st'.inBlockQuote = true then ['>', ' '] else []) ++
    List.replicate (a + m.length) ' ')).inBlockQuote info (codeContent cx info literal).1
    (List.replicate (a + m.length) ' ')
  rw [hf] at hw'
  simp only [St.push, hout, h1, h4, List.append_assoc] at hw'
  refine ⟨pre, a, m, box, u, _, f, rest ++ w, hw'.symm.trans ?_, hpre, hm, hbox, rfl, hfl⟩
  simp only [q, List.append_assoc, List.cons_append, List.nil_append]

/-- **C72.** The items of a list in an item stand in the column of its content, if all widths
agree as they do by default and the number fits. Missing: other widths (`c72_width_false`) and
longer numbers (`c72_wide_false`). -/
theorem c72_list_partial (cx : Cx) (v : NodeValue) (p p' : Pos) (A B items : List Node)
    (type' : ListType) (tight : Bool) (nb : Bool) (st : St) (type : ListType) (w : Nat)
    (hw : wellPlaced (.mk v p (A ++ .mk (.list type' tight) p' items :: B)) = true)
    (hi : isItemLike (.mk v p (A ++ .mk (.list type' tight) p' items :: B)) = true)
    (hitems : items.all isItemLike = true) (hne : items ≠ [])
    (ht : st.listType = some type) (hd : st.inDescriptionDetails = false) (hdepth : 1 ≤ st.listDepth)
    (hl : cx.opts.leadingSpaces ≤ 3) (hw1 : cx.opts.leadingSpaces + 1 + cx.opts.trailingSpaces = w)
    (hw2 : cx.opts.indentWidth = w) (hw3 : cx.opts.orderedListIndentWidth = w)
    (hfit : type = .ordered → (Nat.repr (st.listItemIndex + 1)).length + 2 ≤ w) :
    let q := if st.inBlockQuote then ['>', ' '] else []
    ∃ pre a m box u b m' rest,
      (ser cx (.mk v p (A ++ .mk (.list type' tight) p' items :: B)) nb st).output =
        st.output ++ pre ++ q ++ List.replicate a ' ' ++ m ++ box ++
        u ++ '\n' :: q ++ List.replicate b ' ' ++ m' ++ rest ∧
      (pre = [] ∨ pre = ['\n']) ∧ IsMarker cx.opts type st.listDepth (st.listItemIndex + 1) m ∧
      IsBox (.mk v p (A ++ .mk (.list type' tight) p' items :: B)) box ∧
      IsMarker cx.opts type' (st.listDepth + 1) 1 m' ∧
      StandsIn (a + m.length) (b + if type' = .bullet then cx.opts.leadingSpaces else 0) := by
  intro q
  obtain ⟨prev, st', u, h1, h2, h3, h4, h5, h6, h7, -, -⟩ := item_child cx v p A _ B nb st hw hi
  obtain ⟨pre, a, m, box, hlead, hpre, hm, hbox, ha, hind⟩ := lead_parts cx type
    (.mk v p (A ++ .mk (.list type' tight) p' items :: B)) st ht hd
  rw [hlead] at h1
  simp only [serItemChild, Node.value] at h7
  obtain ⟨y, hnl⟩ : ∃ y : List Char, (if (prev.any fun n => decide (n.pos.endLine + 1 <
      (Node.mk (.list type' tight) p' items).pos.startLine)) = true
    then ['\n', '\n'] else ['\n']) = y ++ ['\n'] := by
    split
    · exact ⟨['\n'], rfl⟩
    · exact ⟨[], rfl⟩
  rw [hnl] at h7
  have hwl : wellPlaced (.mk (.list type' tight) p' items) = true := by
    rw [wellPlaced, Bool.and_eq_true, Bool.and_eq_true] at hw
    exact wellPlacedList_mem hw.2 (by simp)
  obtain ⟨parts, hp1, hp2, hp3⟩ := c43_list cx type' tight p' items (nextIsBracket B)
    (st'.push (y ++ ['\n'])) hwl hitems (h5.trans hd)
  rw [hp2] at h7
  obtain ⟨n, ns, rfl⟩ := List.exists_cons_of_ne_nil hne
  obtain ⟨m', box', body, e, hm', hb'⟩ := hp3 0 n rfl
  obtain ⟨p0, ps, rfl⟩ : ∃ p0 ps, parts = p0 :: ps := by
    cases parts with
    | nil => exact absurd hp1 (by simp)
    | cons a b => exact ⟨a, b, rfl⟩
  simp only [List.getElem?_cons_zero, Option.some.injEq] at e
  obtain ⟨w', hw'⟩ := h7
  simp only [e, List.flatten_cons, St.push, h1, h2, h4, List.append_assoc] at hw'
  refine ⟨pre, a, m, box, u ++ y, (if type' = .ordered then cx.opts.orderedListIndentWidth
      else cx.opts.indentWidth) * (st.listDepth + 1 - 1), m', box' ++ body ++ ps.flatten ++ w',
    hw'.symm.trans ?_, hpre, hm, hbox, by simpa only [h2, St.push] using hm', ?_⟩
  · simp only [q, List.append_assoc, List.cons_append, List.nil_append, ne_eq, not_true_eq_false,
      and_false, if_false]
  · rw [(hind (by rw [hw3]; exact hfit)).2, ha, hw2, hw3, hw1, ite_self, ite_self,
      Nat.add_sub_cancel, ← Nat.mul_succ, show (st.listDepth - 1).succ = st.listDepth by omega,
      StandsIn]
    split <;> omega

/-- An item with all three kinds of blocks, in a block quote. -/
def exMixed : Node :=
  .mk .item ⟨1, 1, 5, 1⟩ [exPar [exText "a"],
    .mk (.codeBlock "c".toList "x\n".toList) ⟨2, 1, 2, 1⟩ [], exPar [exText "b"],
    exList .ordered [[exPar [exText "d"]]]]

example : wellPlaced exMixed = true := by decide +kernel
example : (ser codeCx exMixed false
      { inBlockQuote := true, listType := some .bullet, listDepth := 1, listTight := true }).output =
    ("> " ++ " -  a\n\n>     ~~~~ c\n>     x\n>     ~~~~\n\n>     b\n>     1)  d\n").toList := by
  decide +kernel

/-- The last two lines of a text that ends with a line break. -/
def lastTwo (s : List Char) : Option (List Char × List Char) :=
  match (splitOn '\n' s).reverse with
  | _ :: b :: a :: _ => some (a, b)
  | _ => none

/-- The second of two lines is an item inside of the item that the first line starts. -/
def ItemInItem (ls : List Char × List Char) : Prop :=
  ∃ a b, readItem ls.1 = some a ∧ readItem ls.2 = some b ∧ StandsIn a.content b.column

/-- An item with an ordered list inside. -/
def exInner : Node := exItem [exPar [exText "a"], exList .ordered [[exPar [exText "b"]]]]

example : lastTwo (ser codeCx exInner false
      { listType := some .ordered, listDepth := 1, listItemIndex := 8 }).output =
    some ("9.  a".toList, "    1)  b".toList) := by decide +kernel
example : ItemInItem ("9.  a".toList, "    1)  b".toList) :=
  ⟨⟨0, some 9, '.', 4⟩, ⟨4, some 1, ')', 8⟩, by decide, by decide, by decide⟩

/-- **C72 is false** for the hundredth item: its content starts in column five, but the list
inside is written in column four, and is no part of the item any more. -/
theorem c72_wide_false : ¬ ∀ (k : Nat) (out : List Char) ls,
    lastTwo (ser codeCx exInner false
      { listType := some .ordered, listDepth := 1, listItemIndex := k, output := out }).output =
      some ls →
    ItemInItem ls := by
  intro h
  have e : lastTwo (ser codeCx exInner false
      { listType := some .ordered, listDepth := 1, listItemIndex := 99, output := "99. a\n".toList }).output =
      some ("100. a".toList, "    1)  b".toList) := by decide +kernel
  obtain ⟨a, b, h1, h2, h3⟩ := h 99 _ _ e
  have h1' : readItem "100. a".toList = some ⟨0, some 100, '.', 5⟩ := by decide
  have h2' : readItem "    1)  b".toList = some ⟨4, some 1, ')', 8⟩ := by decide
  rw [h1'] at h1
  rw [h2'] at h2
  cases h1
  cases h2
  exact absurd h3 (by decide)

/-- A context with other options. -/
def exWith (o : Options) : Cx := { codeCx with opts := o }

/-- **C72 is false** for options in range whose widths do not agree: with `indent_width = 2` (and
the default spaces around the marker) an item of the inner list is an item of the outer one. -/
theorem c72_width_false : ¬ ∀ (o : Options) ls, OptionsOk o →
    lastTwo (formatDoc (exWith o) (exDoc [exList .bullet
      [[exPar [exText "a"], exList .bullet [[exPar [exText "b"]]]]]])).output = some ls →
    ItemInItem ls := by
  intro h
  have e : lastTwo (formatDoc (exWith { defaultOptions with indentWidth := 2 })
      (exDoc [exList .bullet [[exPar [exText "a"], exList .bullet [[exPar [exText "b"]]]]]])).output =
      some (" -  a".toList, "   -  b".toList) := by decide +kernel
  obtain ⟨a, b, h1, h2, h3⟩ := h { defaultOptions with indentWidth := 2 } _ { exOptions_ok with indentWidth := by decide } e
  have h1' : readItem " -  a".toList = some ⟨1, none, '-', 4⟩ := by decide
  have h2' : readItem "   -  b".toList = some ⟨3, none, '-', 6⟩ := by decide
  rw [h1'] at h1
  rw [h2'] at h2
  cases h1
  cases h2
  exact absurd h3 (by decide)

/-- **C72 is false** for an item that begins with a code block: a blank line follows the marker,
so that the item is empty and the code stands outside of it. -/
theorem c72_code_first_false : ¬ ∀ literal : List Char,
    ¬ ∃ marker rest, (formatDoc codeCx (exDoc [exList .bullet
        [[.mk (.codeBlock [] literal) ⟨1, 1, 1, 1⟩ []]]])).output = marker ++ '\n' :: '\n' :: rest ∧
      rest ≠ [] ∧ IsEmptyItem marker := by
  intro h
  exact h "x\n".toList ⟨" -  ".toList, "    ~~~~\n    x\n    ~~~~\n".toList, by decide +kernel,
    by decide, ⟨1, none, '-', 3⟩, by decide, by decide⟩

/-- **C72 is false** for a block quote with a list: it is written in column zero. -/
theorem c72_quote_false : ¬ ∀ (text : String) (first second : List Char) (a : ItemStart),
    splitOn '\n' (formatDoc codeCx (exDoc [exList .bullet [[exPar [exText "a"],
      .mk .blockQuote ⟨2, 1, 2, 1⟩ [exList .bullet [[exPar [exText text]]]]]]])).output =
      [first, [], second, []] → readItem first = some a →
    StandsIn a.content (second.takeWhile (· = ' ')).length := by
  intro h
  have := h "b" " -  a".toList ">  -  b".toList ⟨1, none, '-', 4⟩ (by decide +kernel) (by decide)
  exact absurd this (by decide)

/-- **C72 is false** for headings after a paragraph in an item: they are written in the line of the
paragraph. -/
theorem c72_heading_false : ¬ ∀ (a b : String),
    ∃ u v, (formatDoc codeCx (exDoc [exList .bullet [[exPar [exText a],
      .mk (.heading 3) ⟨2, 1, 2, 1⟩ [exText b]]]])).output = u ++ a.toList ++ '\n' :: v := by
  intro h
  obtain ⟨u, v, e⟩ := h "a" "b"
  have e' : (formatDoc codeCx (exDoc [exList .bullet [[exPar [exText "a"],
      .mk (.heading 3) ⟨2, 1, 2, 1⟩ [exText "b"]]]])).output = " -  a### b\n\n".toList := by
    decide +kernel
  have : ['a', '\n'] <:+: " -  a### b\n\n".toList :=
    ⟨u, v, by rw [← e', e, List.append_assoc, List.append_assoc]; rfl⟩
  exact absurd this (by decide +kernel)

/-- **C72 is false** for thematic breaks after a paragraph in an item: they are written in the line of
the paragraph. -/
theorem c72_break_false : ¬ ∀ (a : String), a.toList ≠ [] →
    ∃ u v, (formatDoc codeCx (exDoc [exList .bullet [[exPar [exText a],
      .mk .thematicBreak ⟨2, 1, 2, 1⟩ []]]])).output = u ++ a.toList ++ '\n' :: v := by
  intro h
  obtain ⟨u, v, e⟩ := h "a" (by decide)
  have : ['a', '\n'] <:+: (formatDoc codeCx (exDoc [exList .bullet [[exPar [exText "a"],
      .mk .thematicBreak ⟨2, 1, 2, 1⟩ []]]])).output :=
    ⟨u, v, by rw [e, List.append_assoc, List.append_assoc]; rfl⟩
  exact absurd this (by decide +kernel)

/-- **C72 is false** for tables after a paragraph in an item: the first row is written in the line of the
paragraph, and the others in column zero. -/
theorem c72_table_false : ¬ ∀ (a b c : String) (first second : List Char) (ls : List (List Char)) (i : ItemStart),
    splitOn '\n' (formatDoc codeCx (exDoc [exList .bullet [[exPar [exText a],
      .mk (.table [.none]) ⟨2, 1, 4, 1⟩ [exRow [b], exRow [c]]]]])).output = first :: second :: ls →
    readItem first = some i → (second.all (· = ' ') = true ∨ StandsIn i.content (second.takeWhile (· = ' ')).length) := by
  intro h
  have := h "a" "b" "c" " -  a| b   |".toList "| --- |".toList ["| c   |".toList, [], []] ⟨1, none, '-', 4⟩ (by decide +kernel) (by decide)
  exact absurd this (by decide)

/-- **C72 is false** for HTML blocks, also for one that begins the item: all lines but the first are written in
column zero. -/
theorem c72_html_false : ¬ ∀ (a b : String) (first second : List Char) (ls : List (List Char)) (i : ItemStart),
    '\n' ∉ a.toList → '\n' ∉ b.toList →
    splitOn '\n' (formatDoc codeCx (exDoc [exList .bullet [[
      .mk (.htmlBlock (a.toList ++ '\n' :: b.toList ++ ['\n'])) ⟨1, 3, 2, 6⟩ []]]])).output = first :: second :: ls →
    readItem first = some i → StandsIn i.content (second.takeWhile (· = ' ')).length := by
  intro h
  have := h "<p>" "</p>" " -  <p>".toList "</p>".toList [[], []] ⟨1, none, '-', 4⟩ (by decide +kernel) (by decide +kernel)
    (by decide +kernel) (by decide)
  exact absurd this (by decide)

/-! ### C73: lists that follow each other -/

/-- **C73 is false**: two lists with different markers in the source are written with the same
marker, and are one list then. -/
theorem c73_adjacent_false : ¬ ∀ (type : ListType) (a b : String) (first second : List Char),
    splitOn '\n' (formatDoc codeCx (exDoc [exList type [[exPar [exText a]]],
      exList type [[exPar [exText b]]]])).output = [first, [], second, []] →
    (readItem first).map (·.marker) ≠ (readItem second).map (·.marker) := by
  intro h
  have := h .bullet "a" "b" " -  a".toList " -  b".toList (by decide +kernel)
  exact absurd this (by decide)

/-- **C73.** Lists of different types stay apart: their items do not read as items of one list.
Missing: lists of the same type. -/
theorem c73_adjacent_partial (o : Options) (depth depth' k k' i i' : Nat) (m m' text text' : List Char)
    (ho : OptionsOk o) (hsp : 1 ≤ o.trailingSpaces) (hk1 : 1 ≤ k') (hk : k' < 10 ^ 9)
    (hw : o.orderedListIndentWidth ≤ 6) (hm : IsMarker o .bullet depth k m)
    (hm' : IsMarker o .ordered depth' k' m') (ht : text ≠ []) (hs : text.head? ≠ some ' ')
    (ht' : text' ≠ []) (hs' : text'.head? ≠ some ' ') :
    ∃ x y, readItem (List.replicate i ' ' ++ m ++ text) = some x ∧
      readItem (List.replicate i' ' ' ++ m' ++ text') = some y ∧ x.marker ≠ y.marker ∧
      x.number = none ∧ y.number = some k' := by
  refine ⟨_, _, c43_bullet_reads_partial o depth k i m text ho hsp hm ht hs,
    c43_ordered_reads_partial o depth' k' i' m' text' ho hk1 hk hw hm' ht' hs', ?_, rfl, rfl⟩
  intro h
  simp only at h
  have h1 := ho.unorderedMarker
  rw [h] at h1
  revert h1
  split
  · rcases ho.oddMarker with h2 | h2 <;> rw [h2] <;> decide
  · rcases ho.evenMarker with h2 | h2 <;> rw [h2] <;> decide

example : (formatDoc codeCx (exDoc [exList .bullet [[exPar [exText "a"]]],
    exList .ordered [[exPar [exText "b"]]]])).output = " -  a\n\n1.  b\n".toList := by decide +kernel

end Hongdown.Props
