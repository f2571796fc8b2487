import Verif.Lemmas.Table
import Verif.Props.Code
import Verif.Props.Escape

/-!
# Tables: C27–C29
-/

namespace Hongdown.Props
open Model Spec

/-- The text of a cell, as it is written in the table. -/
def cellContent (cx : Cx) (cell : Node) : List Char := escapeTableCell (collectInlines cx cell.children).1

theorem serTable_output (cx : Cx) (p : Pos) (aligns : List Align) (header : Node) (data : List Node)
    (st : St) :
    (serTable cx p aligns (header :: data) st).output = st.output ++
      tableText cx.width st.inBlockQuote aligns
        ((header :: data).map fun r => r.children.map (cellContent cx)) := by
  simp only [serTable, List.isEmpty_cons, Bool.false_eq_true, if_false, St.push]
  rw [(addReferences_fields _ _).1, (addReferences_fields _ _).2.2]
  simp only [List.map_map]
  congr 3
  funext r
  simp only [Function.comp_apply, List.map_map]
  rfl

/-- **C27.** A table with as many cells in every row as there are alignments is written with
the pipes of all rows, the delimiter row included, in the same columns. Each column is as
wide as its widest cell, but at least three. -/
theorem c27_aligned (cx : Cx) (p : Pos) (aligns : List Align) (rows : List Node) (st : St)
    (hw : WidthOk cx.width)
    (ha : ∀ s, (∀ c ∈ s, c = '-' ∨ c = ':' ∨ c = '|') → cx.width s = s.length)
    (hrows : rows ≠ []) (hrect : ∀ r ∈ rows, r.children.length = aligns.length) :
    ∃ ls widths, (serTable cx p aligns rows st).output = st.output ++ unlines ls ∧
      ls.length = rows.length + 1 ∧ widths.length = aligns.length ∧
      (∀ l ∈ ls, l.getLast? = some '|' ∧ pipeColumns cx.width l =
        columnsAt (cx.width (if st.inBlockQuote then "> ".toList else [])) widths) ∧
      ∀ (i x : Nat), widths[i]? = some x → 3 ≤ x ∧
        (∀ r ∈ rows, ∀ c, r.children[i]? = some c → cx.width (cellContent cx c) ≤ x) ∧
        (x = 3 ∨ ∃ r ∈ rows, ∃ c, r.children[i]? = some c ∧ cx.width (cellContent cx c) = x) := by
  cases rows with
  | nil => exact absurd rfl hrows
  | cons header data =>
    obtain ⟨hlen, hspec⟩ := colWidths_spec cx.width aligns.length
      ((header :: data).map fun r => r.children.map (cellContent cx))
    have hp : cx.width ['|'] = 1 := by simpa using ha ['|'] (by simp)
    have hq : PfxOk (if st.inBlockQuote = true then ['>', ' '] else []) ∧
        barePipes none (if st.inBlockQuote = true then ['>', ' '] else []) = 0 ∧
        (if st.inBlockQuote = true then ['>', ' '] else []).getLast? ≠ some '\\' := by
      cases st.inBlockQuote
      · exact ⟨Or.inl rfl, by decide, by decide⟩
      · exact ⟨Or.inr rfl, by decide, by decide⟩
    have hgetD : ∀ i, i < aligns.length → ∀ d, (colWidths cx.width aligns.length
        ((header :: data).map fun r => r.children.map (cellContent cx)))[i]? =
        some ((colWidths cx.width aligns.length
        ((header :: data).map fun r => r.children.map (cellContent cx))).getD i d) := by
      intro i hi d
      rw [List.getD_eq_getElem?_getD, List.getElem?_eq_getElem (by omega)]; rfl
    refine ⟨_, colWidths cx.width aligns.length
      ((header :: data).map fun r => r.children.map (cellContent cx)),
      by rw [serTable_output, List.map_cons, tableText_eq], by simp, hlen, ?_, ?_⟩
    · -- one row
      have hrow : ∀ r ∈ header :: data, ∀ l, l = (if st.inBlockQuote = true then ['>', ' '] else []) ++
          rowLine ((r.children.map (cellContent cx)).mapIdx fun i cell =>
            formatCell cx.width cell ((colWidths cx.width aligns.length
            ((header :: data).map fun r => r.children.map (cellContent cx))).getD i 3)
            (aligns.getD i .none)) →
          pipeColumns cx.width l =
            columnsAt (cx.width (if st.inBlockQuote then ['>', ' '] else []))
              (colWidths cx.width aligns.length
                ((header :: data).map fun r => r.children.map (cellContent cx))) := by
        rintro r hr l rfl
        rw [pipeColumns_row hw hp hq.1 hq.2.1 hq.2.2]
        · congr 1
          apply List.ext_getElem?
          intro i
          rw [map_mapIdx', List.getElem?_mapIdx]
          by_cases hi : i < aligns.length
          · have hc : i < r.children.length := by rw [hrect r hr]; exact hi
            rw [List.getElem?_map, List.getElem?_eq_getElem hc, hgetD i hi 3]
            simp only [Option.map_some]
            rw [width_formatCell hw]
            refine (hspec i _ (hgetD i hi 3)).2.2 (r.children.map (cellContent cx))
              (List.mem_map.mpr ⟨r, hr, rfl⟩) _ ?_
            rw [List.getElem?_map, List.getElem?_eq_getElem hc]; rfl
          · rw [List.getElem?_eq_none (by rw [List.length_map, hrect r hr]; omega),
              List.getElem?_eq_none (by omega)]
            rfl
        · intro f hf
          obtain ⟨i, hi, rfl⟩ := List.mem_mapIdx.mp hf
          apply barePipes_formatCell
          simp only [List.getElem_map, cellContent]
          exact (c05_no_live_pipe _).2
      have hlast : ∀ q fs, (q ++ rowLine fs).getLast? = some '|' := by
        intro q fs
        rw [List.getLast?_append]
        have : (rowLine fs).getLast? = some '|' := by
          rw [rowLine]
          rcases List.eq_nil_or_concat fs with rfl | ⟨a, b, rfl⟩
          · rfl
          · simp [List.getLast?_cons, List.getLast?_append]
        rw [this]; rfl
      intro l hl
      simp only [List.mem_cons, List.mem_map, List.map_cons] at hl
      refine ⟨?_, ?_⟩
      · rcases hl with rfl | rfl | ⟨cs, ⟨r, hr, rfl⟩, rfl⟩ <;> exact hlast _ _
      · rcases hl with h | rfl | ⟨cs, ⟨r, hr, rfl⟩, h⟩
        · exact hrow header (by simp) _ h
        · rw [pipeColumns_row hw hp hq.1 hq.2.1 hq.2.2]
          · congr 1
            apply List.ext_getElem?
            intro i
            rw [map_mapIdx', List.getElem?_mapIdx]
            by_cases hi : i < aligns.length
            · rw [List.getElem?_eq_getElem hi]
              have h3 := hgetD i hi 3
              simp only [List.map_cons] at h3 hspec ⊢
              rw [h3, Option.map_some, ha, delimCell_length (hspec i _ h3).1]
              intro c hc
              rcases delimCell_chars hc with h | h <;> simp [h]
            · simp only [List.map_cons] at hlen ⊢
              rw [List.getElem?_eq_none (by omega), List.getElem?_eq_none (by omega)]
              rfl
          · intro f hf
            obtain ⟨i, hi, rfl⟩ := List.mem_mapIdx.mp hf
            apply barePipes_of_not_mem
            intro h
            rcases delimCell_chars h with h | h <;> exact absurd h (by decide)
        · exact hrow r (by simp [hr]) _ h.symm
    · intro i x hx
      obtain ⟨h1, h2, h3⟩ := hspec i x hx
      refine ⟨h1, ?_, ?_⟩
      · intro r hr c hc
        exact h3 (r.children.map (cellContent cx)) (List.mem_map.mpr ⟨r, hr, rfl⟩) _
          (by rw [List.getElem?_map, hc]; rfl)
      · rcases h2 with h2 | ⟨r', hr', c, hc, hcx⟩
        · exact Or.inl h2
        · obtain ⟨r, hr, rfl⟩ := List.mem_map.mp hr'
          rw [List.getElem?_map, Option.map_eq_some_iff] at hc
          obtain ⟨d, hd, rfl⟩ := hc
          exact Or.inr ⟨r, hr, d, hd, hcx⟩

/-- **C28.** The rows of a table read back as the contents of their cells, and the second
line reads back as the alignments. In a block quote, every line is a line of the quote. -/
theorem c28_read_back (cx : Cx) (p : Pos) (aligns : List Align) (rows : List Node) (st : St)
    (hrows : rows ≠ []) :
    ∃ ls us h d data, (serTable cx p aligns rows st).output = st.output ++ unlines ls ∧
      (if st.inBlockQuote then ls.mapM unquote else some ls) = some us ∧ us = h :: d :: data ∧
      (h :: data).map readRow =
        rows.map (fun r => some (r.children.map fun c => strip (cellContent cx c))) ∧
      (readRow d).bind (·.mapM readDelim) = some aligns := by
  cases rows with
  | nil => exact absurd rfl hrows
  | cons header data =>
    obtain ⟨hlen, hspec⟩ := colWidths_spec cx.width aligns.length
      ((header :: data).map fun r => r.children.map (cellContent cx))
    generalize hW : colWidths cx.width aligns.length
      ((header :: data).map fun r => r.children.map (cellContent cx)) = W at hlen hspec
    have hrow : ∀ r : Node, readRow (rowLine ((r.children.map (cellContent cx)).mapIdx fun i cell =>
        formatCell cx.width cell (W.getD i 3) (aligns.getD i .none))) =
        some (r.children.map fun c => strip (cellContent cx c)) := by
      intro r
      rw [readRow_row]
      · congr 1
        rw [map_mapIdx']
        apply List.ext_getElem?
        intro i
        simp only [List.getElem?_mapIdx, List.getElem?_map, Option.map_map]
        congr 1
        funext c
        exact strip_formatCell _ _ _ _
      · intro f hf
        obtain ⟨i, hi, rfl⟩ := List.mem_mapIdx.mp hf
        apply barePipes_formatCell
        simp only [List.getElem_map, cellContent]
        exact (c05_no_live_pipe _).2
    refine ⟨_, _, rowLine ((header.children.map (cellContent cx)).mapIdx fun i cell =>
        formatCell cx.width cell (W.getD i 3) (aligns.getD i .none)),
      rowLine (aligns.mapIdx fun i a => delimCell (W.getD i 3) a),
      data.map fun r => rowLine ((r.children.map (cellContent cx)).mapIdx fun i cell =>
        formatCell cx.width cell (W.getD i 3) (aligns.getD i .none)),
      by rw [serTable_output, List.map_cons, tableText_eq], ?_, rfl, ?_, ?_⟩
    · simp only [List.map_cons] at hW
      rw [hW]
      cases st.inBlockQuote
      · simp
      · simp only [if_true, List.mapM_cons, List.cons_append, List.nil_append, unquote_prefix]
        rw [mapM_map_some (h := fun cells : List (List Char) => rowLine (cells.mapIdx fun i cell =>
            formatCell cx.width cell (W.getD i 3) (aligns.getD i .none)))
          (hf := fun _ => unquote_prefix _)]
        simp
    · simp only [List.map_cons, List.map_map, hrow]
      simp only [List.cons.injEq, true_and]
      apply List.map_congr_left
      intro r _
      exact hrow r
    · rw [readRow_row]
      · simp only [Option.bind_some]
        have : ∀ i a, aligns[i]? = some a → 3 ≤ W.getD i 3 := by
          intro i a hi
          have hi' : i < W.length := by
            rw [hlen]; exact (List.getElem?_eq_some_iff.mp hi).1
          have : W[i]? = some (W.getD i 3) := by
            rw [List.getD_eq_getElem?_getD, List.getElem?_eq_getElem hi']; rfl
          exact (hspec i _ this).1
        rw [map_mapIdx']
        have e : (aligns.mapIdx fun i a => strip (delimCell (W.getD i 3) a)).map readDelim =
            aligns.map some := by
          apply List.ext_getElem?
          intro i
          rw [map_mapIdx', List.getElem?_mapIdx, List.getElem?_map]
          cases hi : aligns[i]? with
          | none => rfl
          | some a =>
            simp only [Option.map_some]
            rw [strip_delimCell (this i a hi), readDelim_delimCell (this i a hi)]
        generalize (aligns.mapIdx fun i a => strip (delimCell (W.getD i 3) a)) = l at e
        clear hW hspec hlen hrow this
        induction l generalizing aligns with
        | nil => cases aligns with
          | nil => rfl
          | cons a as => simp at e
        | cons x xs ih => cases aligns with
          | nil => simp at e
          | cons a as =>
            simp only [List.map_cons, List.cons.injEq] at e
            simp [List.mapM_cons, e.1, ih as e.2]
      · intro f hf
        obtain ⟨i, hi, rfl⟩ := List.mem_mapIdx.mp hf
        apply barePipes_of_not_mem
        intro h
        rcases delimCell_chars h with h | h <;> exact absurd h (by decide)

/-- **C27.** In every row but the delimiter row, the text between the pipes is the cell's
content with at least one space on each side; further spaces are on the side or sides that
the alignment of the column asks for. -/
theorem c27_padding (cx : Cx) (p : Pos) (aligns : List Align) (rows : List Node) (st : St)
    (hrows : rows ≠ []) :
    ∃ h d data, (serTable cx p aligns rows st).output = st.output ++ unlines (h :: d :: data) ∧
      data.length + 1 = rows.length ∧
      ∀ (k : Nat) (l : List Char) (r : Node), (h :: data)[k]? = some l → rows[k]? = some r →
      ∀ (i : Nat) (c : Node), r.children[i]? = some c → ∃ x y,
        (splitPipes l)[i + 1]? = some (spaces (x + 1) ++ cellContent cx c ++ spaces (y + 1)) ∧
        PaddingFits aligns[i]? x y := by
  cases rows with
  | nil => exact absurd rfl hrows
  | cons header data =>
    refine ⟨_, _, _, by rw [serTable_output, List.map_cons, tableText_eq], by simp, ?_⟩
    generalize hW : colWidths cx.width aligns.length _ = W
    intro k l r hl hr i c hc
    have key : l = (if st.inBlockQuote = true then ['>', ' '] else []) ++
        rowLine ((r.children.map (cellContent cx)).mapIdx fun i cell =>
          formatCell cx.width cell (W.getD i 3) (aligns.getD i .none)) := by
      cases k with
      | zero =>
        simp only [List.getElem?_cons_zero, Option.some.injEq] at hl hr
        rw [← hl, hr]
      | succ k =>
        simp only [List.getElem?_cons_succ] at hl hr
        rw [List.getElem?_map, List.getElem?_map, hr] at hl
        simp only [Option.map_some, Option.some.injEq] at hl
        exact hl.symm
    obtain ⟨x, y, h1, h2⟩ := formatCell_padding cx.width (cellContent cx c) (W.getD i 3) aligns i
    refine ⟨x, y, ?_, h2⟩
    rw [key, splitPipes_row]
    · rw [List.getElem?_cons_succ, map_mapIdx', List.getElem?_append_left, List.getElem?_mapIdx,
        List.getElem?_map, hc]
      · simp only [Option.map_some]; rw [h1]
      · have := (List.getElem?_eq_some_iff.mp hc).1
        simpa using this
    · cases st.inBlockQuote <;> decide
    · cases st.inBlockQuote <;> decide
    · intro f hf
      obtain ⟨i, hi, rfl⟩ := List.mem_mapIdx.mp hf
      apply barePipes_formatCell
      simp only [List.getElem_map, cellContent]
      exact (c05_no_live_pipe _).2

/-- A paragraph of text as a table cell. -/
def exCell (s : String) : Node := .mk .tableCell ⟨1, 1, 1, 1⟩ [.mk (.text s.toList) ⟨1, 1, 1, 1⟩ []]

/-- A row of such cells. -/
def exRow (ss : List String) : Node := .mk .tableRow ⟨1, 1, 1, 1⟩ (ss.map exCell)

example : (serTable codeCx ⟨0, 0, 0, 0⟩ [.left, .none, .center, .right]
    [exRow ["a", "b|c", "dddd", "e"], exRow ["long cell", "", "x", "12345"]] {}).output =
    ("| a         | b\\|c | dddd |     e |\n" ++
     "| :-------- | ---- | :--: | ----: |\n" ++
     "| long cell |      |  x   | 12345 |\n").toList := by decide +kernel

example : pipeColumns List.length "| a\\|b | c |".toList = [0, 7, 11] := by decide +kernel
example : readRow "| :-- | --- |".toList = some [":--".toList, "---".toList] := by decide +kernel
example : readDelim ":-:".toList = some .center ∧ readDelim "-:-".toList = none := by decide

/-- **C29.** The warnings of a table are one for each source line of the table that is no
separator line and has more than `cols + 1` or fewer than `cols` separating pipes, in order;
each says how many pipes there are and how many there should be. -/
theorem c29_warnings (cx : Cx) (p : Pos) (aligns : List Align) (rows : List Node) (st : St)
    (hrows : rows ≠ []) :
    ∃ ws, (serTable cx p aligns rows st).warnings = st.warnings ++ ws ∧
      ws.Pairwise (fun a b => a.line < b.line) ∧
      (∀ n, (∃ v ∈ ws, v.line = n) ↔
        p.startLine ≠ 0 ∧ p.startLine ≤ n ∧ n ≤ p.endLine ∧
        ∃ line, cx.sourceLines[n - 1]? = some line ∧ isSeparator line = false ∧
          (barePipes none line > aligns.length + 1 ∨ barePipes none line < aligns.length)) ∧
      ∀ v ∈ ws, ∀ line, cx.sourceLines[v.line - 1]? = some line →
        v.message = (if barePipes none line > aligns.length + 1 then
            "table row has " ++ toString (barePipes none line) ++ " pipe characters, expected " ++
              toString (aligns.length + 1) ++ " for " ++ toString aligns.length ++
              " columns; unescaped `|` in cell content? (table starts at line " ++
              toString p.startLine ++ ")"
          else
            "table row has " ++ toString (barePipes none line) ++
              " pipe characters, expected at least " ++ toString aligns.length ++ " for " ++
              toString aligns.length ++ " columns (table starts at line " ++
              toString p.startLine ++ ")").toList := by
  refine ⟨tableWarnings cx.sourceLines p aligns.length, ?_, ?_, ?_, ?_⟩
  · cases rows with
    | nil => exact absurd rfl hrows
    | cons header data =>
      simp only [serTable, List.isEmpty_cons, Bool.false_eq_true, if_false, St.push]
      rw [(addReferences_fields _ _).2.1]
  · exact tableWarnings_sorted _ _ _
  · intro n
    exact tableWarnings_iff _ _ _ _
  · intro v hv line hl
    exact tableLineWarning_text (tableWarnings_text hv hl)

example : tableWarnings ["| a | b |".toList, "|--|--|".toList, "| a | b | c |".toList, "a \\| b".toList]
    ⟨1, 1, 4, 1⟩ 2 =
    [⟨3, ("table row has 4 pipe characters, expected 3 for 2 columns; " ++
        "unescaped `|` in cell content? (table starts at line 1)").toList⟩,
     ⟨4, ("table row has 0 pipe characters, expected at least 2 for 2 columns " ++
        "(table starts at line 1)").toList⟩] := by decide +kernel

/-- **C29.** The claim that a warning is given exactly for rows with a wrong number of cells
is false in both directions: a row without outer pipes is reported, and a row with one cell
too few is not. -/
theorem c29_cell_count_false :
    (cellCount "a | b".toList = 2 ∧ (tableLineWarning 2 1 "a | b".toList).isSome) ∧
    (cellCount "| a | b |".toList = 2 ∧ tableLineWarning 3 1 "| a | b |".toList = none) := by
  decide +kernel

/-- **C29.** The content of a written cell never adds to the count. -/
theorem c29_cells_add_no_pipe (cx : Cx) (cell : Node) :
    countPipes none (cellContent cx cell) = 0 := by
  rw [countPipes_eq]; exact (c05_no_live_pipe _).2

end Hongdown.Props
