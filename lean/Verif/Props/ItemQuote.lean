import Verif.Lemmas.ItemQuote
import Verif.Props.Quote

/-!
# C110: block quotes in list items stay in their items

STYLE.md:189-203 "Align continuation lines with the start of the item text", STYLE.md:328-337 "Continue block quotes with `>` on
each line", STYLE.md:437-440 "Use one blank line between […] block elements".
-/

namespace Hongdown.Props
open Model Spec

/-- **C110 (partial).** Full statement: for all blocks in the quote, and for lists in quotes; see the negations below. A block quote
of paragraphs in an item of a list that is in no quote: it begins on a line of its own, and each of its lines begins with the
spaces up to the column of the content of the item and the mark of the quote. Missing also: numbers that do not fit
(`c72_wide_false`). -/
theorem c110_paragraphs_partial (cx : Cx) (v : NodeValue) (p p' : Pos) (A B ps : List Node) (nb : Bool) (st : St) (type : ListType)
    (hw : wellPlaced (.mk v p (A ++ .mk .blockQuote p' ps :: B)) = true)
    (hi : isItemLike (.mk v p (A ++ .mk .blockQuote p' ps :: B)) = true)
    (hps : ∀ n ∈ ps, n.value = .paragraph ∧ NoAbbreviation cx n.pos)
    (ht : st.listType = some type) (hd : st.inDescriptionDetails = false) (hq : st.inBlockQuote = false)
    (hp : st.blockquotePrefix = [])
    (hfit : type = .ordered → (Nat.repr (st.listItemIndex + 1)).length + 2 ≤ cx.opts.orderedListIndentWidth) :
    ∃ pre a m box u st' nb' text, st'.output = st.output ++ pre ++ List.replicate a ' ' ++ m ++ box ++ u ++ ['\n'] ∧
      (pre = [] ∨ pre = ['\n']) ∧ IsMarker cx.opts type st.listDepth (st.listItemIndex + 1) m ∧
      IsBox (.mk v p (A ++ .mk .blockQuote p' ps :: B)) box ∧
      (ser cx (.mk .blockQuote p' ps) nb' st').output = st'.output ++ text ∧
      st'.output ++ text <+: (ser cx (.mk v p (A ++ .mk .blockQuote p' ps :: B)) nb st).output ∧
      Prefixed (List.replicate (a + m.length) ' ' ++ ['>']) text ∧
      text = joined (List.replicate (a + m.length) ' ' ++ ['>', '\n']) (ps.map fun n =>
        wrapText cx.width (collectInlines cx n.children).1 (List.replicate (a + m.length) ' ' ++ ['>', ' ']) cx.opts.lineWidth ++
          ['\n']) := by
  obtain ⟨prev, st', u, h1, h2, h3, h4, h5⟩ := item_child_quote cx v p A _ B nb st hw hi
  obtain ⟨pre, a, m, box, hlead, hpre, hm, hbox, ha, hind⟩ := lead_parts cx type
    (.mk v p (A ++ .mk .blockQuote p' ps :: B)) st ht hd
  rw [hlead] at h1
  rw [(hind hfit).1] at h4 h5
  simp only [serItemChild, Node.value, h2, hq, Bool.false_eq_true, if_false, List.append_nil] at h5
  obtain ⟨y, hy⟩ : ∃ y : List Char, (if prev.isSome = true then ['\n', '\n'] else ['\n']) = y ++ ['\n'] := by
    cases prev with
    | none => exact ⟨[], rfl⟩
    | some _ => exact ⟨['\n'], rfl⟩
  rw [hy] at h5
  have e : (ser cx (.mk .blockQuote p' ps) (nextIsBracket B) (st'.push (y ++ ['\n']))).output =
      (st'.push (y ++ ['\n'])).output ++ itemQuoteText cx (List.replicate (a + m.length) ' ' ++ ['>', ' '])
        (List.replicate (a + m.length) ' ' ++ ['>', '\n']) ps := by
    rw [ser, dispatch, serBlockQuote]
    show (serQuoteChildren _ (serKids cx ps) (enterQuote (st'.push (y ++ ['\n'])))).output = _
    rw [quotedChildren _ ps _ hps rfl rfl]
    simp only [enterQuote, St.push, h3, hp, h4, List.append_nil, List.nil_append]
  refine ⟨pre, a, m, box, u ++ y, st'.push (y ++ ['\n']), nextIsBracket B, _, ?_, hpre, hm, hbox, e, ?_, ?_, rfl⟩
  · simp only [St.push, h1, hq, Bool.false_eq_true, if_false, List.append_nil, List.append_assoc]
  · rw [← e]; exact h5
  · have := itemQuoteText_prefixed (cx := cx) (pfx := List.replicate (a + m.length) ' ' ++ ['>', ' '])
      (m := List.replicate (a + m.length) ' ' ++ ['>']) (by simp) (by rw [trimEnd_quote]; exact List.prefix_rfl) (by simp) ps
    simpa only [List.append_assoc, List.cons_append, List.nil_append] using this

/-- A block quote. -/
def exInnerQuote (cs : List Node) : Node := .mk .blockQuote ⟨2, 1, 2, 1⟩ cs

example : (formatDoc codeCx (exDoc [exList .bullet [[exPar [exText "a"], exInnerQuote [exPar [exText "b"], exPar [exText "c"]]]]])).output =
    " -  a\n\n    > b\n    >\n    > c\n".toList := by decide +kernel
example : wellPlaced (exItem [exPar [exText "a"], exInnerQuote [exPar [exText "b"]]]) = true := by decide +kernel

/-- **C110 is false** of a quote in a quote in an item: it is written in column zero and leaves the item. -/
theorem c110_nested_false : ¬ ∀ (a b : String) (first second : List Char) (i : ItemStart),
    splitOn '\n' (formatDoc codeCx (exDoc [exList .bullet [[exPar [exText a], exInnerQuote [exInnerQuote [exPar [exText b]]]]]])).output =
      [first, [], second, []] → readItem first = some i →
    StandsIn i.content (second.takeWhile (· = ' ')).length := by
  intro h
  have := h "a" "b" " -  a".toList "> > b".toList ⟨1, none, '-', 4⟩ (by decide +kernel) (by decide)
  exact absurd this (by decide)

/-- **C110 is false** of code in a quote in an item. -/
theorem c110_code_false : ¬ ∀ (a : String) (code : List Char) (first : List Char) (rest : List (List Char)) (i : ItemStart),
    splitOn '\n' (formatDoc codeCx (exDoc [exList .bullet [[exPar [exText a],
      exInnerQuote [.mk (.codeBlock [] code) ⟨2, 1, 2, 1⟩ []]]]])).output = first :: [] :: rest ++ [[]] → readItem first = some i →
    ∀ l ∈ rest, StandsIn i.content (l.takeWhile (· = ' ')).length := by
  intro h
  have := h "a" "x\n".toList " -  a".toList ["> ~~~~".toList, "> x".toList, "> ~~~~".toList] ⟨1, none, '-', 4⟩ (by decide +kernel)
    (by decide) "> x".toList (by simp)
  exact absurd this (by decide)

/-- **C110 is false** of tables in a quote in an item. -/
theorem c110_table_false : ¬ ∀ (a b : String) (first : List Char) (rest : List (List Char)) (i : ItemStart),
    splitOn '\n' (formatDoc codeCx (exDoc [exList .bullet [[exPar [exText a],
      exInnerQuote [.mk (.table [.left]) ⟨2, 1, 2, 1⟩ [.mk .tableRow ⟨2, 1, 2, 1⟩ [.mk .tableCell ⟨2, 1, 2, 1⟩ [exText b]]]]]]])).output =
      first :: [] :: rest ++ [[]] → readItem first = some i →
    ∀ l ∈ rest, StandsIn i.content (l.takeWhile (· = ' ')).length := by
  intro h
  have := h "a" "d" " -  a".toList ["> | d   |".toList, "> | :-- |".toList] ⟨1, none, '-', 4⟩ (by decide +kernel)
    (by decide) "> | d   |".toList (by simp)
  exact absurd this (by decide)

/-- The number of marks of quotes in a line. -/
def quoteMarks (l : List Char) : Nat := (l.filter (· = '>')).length

/-- **C110 is false** of quotes in items of lists in quotes: a quote in a quote has three marks, and the blank line before it has
none and ends the outer quote. -/
theorem c110_in_quote_false : ¬ ∀ (a b : String), '>' ∉ a.toList → '>' ∉ b.toList →
    ∀ l ∈ (splitOn '\n' (formatDoc codeCx (exDoc [exInnerQuote [exList .bullet [[exPar [exText a], exInnerQuote [exPar [exText b]]]]]])).output).dropLast,
      1 ≤ quoteMarks l ∧ quoteMarks l ≤ 2 := by
  intro h
  have := h "a" "b" (by decide +kernel) (by decide +kernel) ">     > > b".toList (by decide +kernel)
  exact absurd this (by decide)

example : (formatDoc codeCx (exDoc [exInnerQuote [exList .bullet [[exPar [exText "a"], exInnerQuote [exPar [exText "b"]]]]]])).output =
    ">  -  a\n\n>     > > b\n".toList := by decide +kernel

/-- **C110 is false** of what follows a quote in an item: two blank lines are written, not one. -/
theorem c110_after_false : ¬ ∀ (a b c : String),
    ¬ "\n\n\n".toList <:+: (formatDoc codeCx (exDoc [exList .bullet [[exPar [exText a], exInnerQuote [exPar [exText b]],
      exPar [exText c]]]])).output := by
  intro h
  exact absurd (h "a" "b" "c") (by decide +kernel)

example : (formatDoc codeCx (exDoc [exList .bullet [[exPar [exText "a"], exInnerQuote [exPar [exText "b"]], exPar [exText "c"]]]])).output =
    " -  a\n\n    > b\n\n\n    c\n".toList := by decide +kernel

end Hongdown.Props
