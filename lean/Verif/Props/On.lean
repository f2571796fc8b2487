import Verif.Lemmas.On
import Verif.Props.Off

/-!
# C18 and C113 in documents with directives
-/

namespace Hongdown.Props
open Model Spec

/-- **C18.** In a document with directives, except the one that turns formatting off for the rest of the file: every link
in a paragraph, however deep, that is written as a reference has a definition with its label in the output, if the block
is not one that is kept as it is. (For those see `c63_skipped_false`.) -/
theorem c18_directives_all (cx : Cx) (p : Pos) (A B : List Node) (c : Node) (h : wellPlacedDoc (A ++ c :: B) = true)
    (hd : ∀ m ∈ A ++ c :: B, m.directive ≠ some .disableFile) (hon : ¬ Off A c) (q : Pos) (is : List Node)
    (hq : Within (.mk .paragraph q is) c) (ha : abbreviationDef cx q = none)
    (l : Node) (hl : Inside l is) (r : Ref) (hr : Registers cx l r) :
    ∃ url title,
      referenceText ⟨r.label, url, title⟩ <:+: (formatDoc cx (.mk .document p (A ++ c :: B))).output := by
  obtain ⟨h1, h2, h3⟩ := within_text hq ⟨rfl, rfl, rfl⟩
  obtain ⟨x, _, hx, ht⟩ := document_defines_on cx p A B c h hd h2 h3 h1 hon r (within_uses hq (paragraph_uses ha hl hr))
  exact ⟨x.url, x.title, hx ▸ ht⟩

/-- A link in a region without formatting, and one after it. -/
def exOnOff : List Node :=
  [exPar [exLink "a" "https://a.example/"], exDirective "disable" 3, exLine "x  y" 5, exDirective "enable" 7,
   exPar [exLink "b" "https://b.example/"]]

example : (formatDoc (exOffCx "disable") (exDoc exOnOff)).output =
    ("[a]\n\n[a]: https://a.example/\n\n<!-- hongdown-disable -->\n\nx  y\n\n<!-- hongdown-enable -->\n\n[b]\n\n" ++
     "[b]: https://b.example/\n").toList := by decide +kernel

/-- The last block is after `enable`. -/
theorem exOnOff_on : ¬ Off (exOnOff.take 4) (exPar [exLink "b" "https://b.example/"]) := by
  rw [off_iff]
  decide +kernel

example := c18_directives_all (exOffCx "disable") ⟨1, 1, 1, 1⟩ (exOnOff.take 4) [] (exPar [exLink "b" "https://b.example/"])
  (by decide +kernel) (by decide +kernel) exOnOff_on

/-- **C18.** The same for the links in headings. -/
theorem c18_directives_heading_all (cx : Cx) (p : Pos) (A B : List Node) (c : Node) (h : wellPlacedDoc (A ++ c :: B) = true)
    (hd : ∀ m ∈ A ++ c :: B, m.directive ≠ some .disableFile) (hon : ¬ Off A c) (level : Nat) (q : Pos) (is : List Node)
    (hq : Within (.mk (.heading level) q is) c) (url title : List Char) (lp : Pos) (ls : List Node)
    (hl : Inside (.mk (.link url title) lp ls) is) (label : List Char)
    (hr : registeredLabel cx lp = some label ∨
      registeredLabel cx lp = none ∧ isExternalUrl url = true ∧ label = softToSpace (rawTexts ls)) :
    ∃ url title,
      referenceText ⟨label, url, title⟩ <:+: (formatDoc cx (.mk .document p (A ++ c :: B))).output := by
  have hm : (⟨label, url, title⟩ : Ref) ∈ (uses cx (.mk (.heading level) q is)).must := by
    rw [uses]
    refine inside_texts (cx := cx) hl _ ?_
    rw [collectText]
    rcases hr with hl | ⟨hl, hu, rfl⟩
    · rw [registeredLabel, Option.map_eq_some_iff] at hl
      obtain ⟨⟨text, l⟩, h1, rfl⟩ := hl
      simp only [h1, formatReference_label]
      simp
    · rw [registeredLabel, Option.map_eq_none_iff] at hl
      simp only [hl, if_pos hu]
      simp [formatExternalLink]
  obtain ⟨h1, h2, h3⟩ := within_text hq ⟨rfl, rfl, rfl⟩
  obtain ⟨x, _, hx, ht⟩ := document_defines_on cx p A B c h hd h2 h3 h1 hon _ (within_uses hq hm)
  simp only at hx
  exact ⟨x.url, x.title, hx ▸ ht⟩

/-- **C18.** The same for the links in the cells of tables. -/
theorem c18_directives_table_all (cx : Cx) (p : Pos) (A B : List Node) (c : Node) (h : wellPlacedDoc (A ++ c :: B) = true)
    (hd : ∀ m ∈ A ++ c :: B, m.directive ≠ some .disableFile) (hon : ¬ Off A c) (aligns : List Align) (q : Pos)
    (rows : List Node) (hq : Within (.mk (.table aligns) q rows) c)
    (row cell : Node) (hrow : row ∈ rows) (hcell : cell ∈ row.children)
    (l : Node) (hl : Inside l cell.children) (r : Ref) (hr : Registers cx l r) :
    ∃ url title,
      referenceText ⟨r.label, url, title⟩ <:+: (formatDoc cx (.mk .document p (A ++ c :: B))).output := by
  have hm : r ∈ (uses cx (.mk (.table aligns) q rows)).must := by
    rw [uses]
    obtain ⟨nb, h⟩ := inside_mem (cx := cx) hl
    exact List.mem_flatMap.mpr ⟨row, hrow, List.mem_flatMap.mpr ⟨cell, hcell, h r (registers_mem hr nb)⟩⟩
  obtain ⟨h1, h2, h3⟩ := within_text hq ⟨rfl, rfl, rfl⟩
  obtain ⟨x, _, hx, ht⟩ := document_defines_on cx p A B c h hd h2 h3 h1 hon _ (within_uses hq hm)
  exact ⟨x.url, x.title, hx ▸ ht⟩

/-- A heading and a table with links after a block that is kept as it is. -/
def exOnMore : List Node :=
  [exDirective "disable-next-line" 1, exLine "x  y" 5, .mk (.heading 3) ⟨7, 1, 7, 9⟩ [exLink "b" "https://b.example/"],
   .mk (.table [.none]) ⟨9, 1, 10, 9⟩
     [.mk .tableRow ⟨9, 1, 9, 9⟩ [.mk .tableCell ⟨9, 1, 9, 9⟩ [exLink "c" "https://c.example/"]]]]

example : (formatDoc (exOffCx "disable") (exDoc exOnMore)).output =
    ("<!-- hongdown-disable-next-line -->\n\nx  y\n\n### [b]\n\n| [c] |\n| --- |\n\n" ++
     "[b]: https://b.example/\n[c]: https://c.example/\n").toList := by decide +kernel

/-- **C113 (partial).** With other directives before the directive, for the blocks that are not kept as they are: their
references are defined above the directive. -/
theorem c113_directives_partial (cx : Cx) (p : Pos) (A C B : List Node) (c : Node) (r : Pos) (ks : List Node)
    (literal : List Char) (d : Directive)
    (hw : wellPlacedDoc (A ++ c :: C ++ .mk (.htmlBlock literal) r ks :: B) = true) (hn : noteFreeList (A ++ c :: C) = true)
    (hB : ∀ n ∈ B, n.isFootnoteDefinition = false) (hd : ∀ n ∈ A ++ c :: C, n.directive ≠ some .disableFile)
    (hl : ∀ n, (A ++ c :: C).getLast? = some n → n.isPlainHtml = false)
    (hh : parseDirective literal = some d) (ho : TurnsOff d) (hon : ¬ Off A c) (q : Pos) (is : List Node)
    (hq : Within (.mk .paragraph q is) c) (ha : abbreviationDef cx q = none)
    (l : Node) (hi : Inside l is) (f : Ref) (hr : Registers cx l f) :
    ∃ X Y, (formatDoc cx (.mk .document p (A ++ c :: C ++ .mk (.htmlBlock literal) r ks :: B))).output =
        X ++ offText false d literal ++ Y ∧
      ∃ url title, referenceText ⟨f.label, url, title⟩ <:+: X := by
  obtain ⟨Y, h⟩ := formatDoc_off (cx := cx) (p := p) (q := p) hw hn hB hd hl hh ho
  have he : (A ++ c :: C).isEmpty = false := by cases A <;> rfl
  rw [he] at h
  refine ⟨_, Y, h, ?_⟩
  have hwA : wellPlacedDoc (A ++ c :: C) = true := by
    rw [wellPlacedDoc, Bool.and_eq_true] at hw ⊢
    rw [List.all_append, Bool.and_eq_true] at hw
    exact ⟨hw.1.1, (wellPlacedList_append.mp hw.2).1⟩
  exact c18_directives_all cx p A C c hwA hd hon q is hq ha l hi f hr

example : (formatDoc (exOffCx "disable") (exDoc (exOnOff ++ [exDirective "disable-file" 11]))).output =
    ("[a]\n\n[a]: https://a.example/\n\n<!-- hongdown-disable -->\n\nx  y\n\n<!-- hongdown-enable -->\n\n[b]\n\n" ++
     "[b]: https://b.example/\n<!-- hongdown-disable-file -->").toList := by decide +kernel

end Hongdown.Props
