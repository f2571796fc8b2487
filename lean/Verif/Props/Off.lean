import Verif.Lemmas.Off
import Verif.Props.Before
import Verif.Props.Document

/-!
# C113: definitions stay above the directive that turns formatting off
-/

namespace Hongdown.Props
open Model Spec

/-- **C113 (partial).** Full statement: with footnotes and with HTML blocks right before the directive too
(`c113_note_false`, `c113_html_false`). Up to a directive that turns formatting off, for the next block, for the section,
for a region or for the file, a document is written exactly as if it ended there: the blocks before, then the definitions
of the references that they use, then the directive. Other directives may stand before it. -/
theorem c113_off_partial (cx : Cx) (p q : Pos) (A B : List Node) (r : Pos) (ks : List Node) (literal : List Char) (d : Directive)
    (hw : wellPlacedDoc (A ++ .mk (.htmlBlock literal) r ks :: B) = true) (hn : noteFreeList A = true)
    (hB : ∀ n ∈ B, n.isFootnoteDefinition = false) (hd : ∀ n ∈ A, n.directive ≠ some .disableFile)
    (hl : ∀ n, A.getLast? = some n → n.isPlainHtml = false)
    (hh : parseDirective literal = some d) (ho : TurnsOff d) :
    (formatDoc cx (.mk .document q A)).output ++ offText A.isEmpty d literal <+:
      (formatDoc cx (.mk .document p (A ++ .mk (.htmlBlock literal) r ks :: B))).output := by
  obtain ⟨Y, h⟩ := formatDoc_off (cx := cx) (p := p) (q := q) hw hn hB hd hl hh ho
  exact ⟨Y, h.symm⟩

/-- **C113 (partial).** For links in paragraphs, at any depth, of blocks with no directive before: a link that is
written as a reference has its definition above the directive. -/
theorem c113_defined_partial (cx : Cx) (p : Pos) (A B : List Node) (r : Pos) (ks : List Node) (literal : List Char) (d : Directive)
    (hw : wellPlacedDoc (A ++ .mk (.htmlBlock literal) r ks :: B) = true) (hn : noteFreeList A = true)
    (hB : ∀ n ∈ B, n.isFootnoteDefinition = false) (hd : ∀ n ∈ A, n.directive = none)
    (hl : ∀ n, A.getLast? = some n → n.isPlainHtml = false)
    (hh : parseDirective literal = some d) (ho : TurnsOff d) (c : Node) (hc : c ∈ A) (q : Pos) (is : List Node)
    (hq : Within (.mk .paragraph q is) c) (ha : abbreviationDef cx q = none)
    (l : Node) (hi : Inside l is) (f : Ref) (hr : Registers cx l f) :
    ∃ X Y, (formatDoc cx (.mk .document p (A ++ .mk (.htmlBlock literal) r ks :: B))).output =
        X ++ offText false d literal ++ Y ∧
      ∃ url title, referenceText ⟨f.label, url, title⟩ <:+: X := by
  obtain ⟨Y, h⟩ := formatDoc_off (cx := cx) (p := p) (q := p) hw hn hB (fun n hm => by simp [hd n hm]) hl hh ho
  have he : A.isEmpty = false := by cases A with
    | nil => cases hc
    | cons a A => rfl
  rw [he] at h
  refine ⟨_, Y, h, ?_⟩
  have hwA : wellPlacedDoc A = true := by
    rw [wellPlacedDoc, Bool.and_eq_true] at hw ⊢
    rw [List.all_append, Bool.and_eq_true] at hw
    exact ⟨hw.1.1, (wellPlacedList_append.mp hw.2).1⟩
  exact c18_document_all cx p A hwA hd c hc q is hq ha l hi f hr

/-- A source with a link, a directive and a line with two spaces. -/
def exOffCx (s : String) : Cx :=
  { codeCx with
    sourceEndsWithNewline := true
    sourceLines := ["[a](https://a.example/)".toList, [], ("<!-- hongdown-" ++ s ++ " -->").toList, [], "x  y".toList] }

/-- The blocks of that source. -/
def exOff (s : String) : List Node :=
  [exPar [exLink "a" "https://a.example/"], exDirective s 3, exLine "x  y" 5]

example : (formatDoc (exOffCx "disable") (exDoc (exOff "disable"))).output =
    "[a]\n\n[a]: https://a.example/\n\n<!-- hongdown-disable -->\n\nx  y\n".toList := by decide +kernel
example : (formatDoc (exOffCx "disable-next-line") (exDoc (exOff "disable-next-line"))).output =
    "[a]\n\n[a]: https://a.example/\n\n<!-- hongdown-disable-next-line -->\n\nx  y\n".toList := by decide +kernel
example : (formatDoc (exOffCx "disable-file") (exDoc (exOff "disable-file"))).output =
    "[a]\n\n[a]: https://a.example/\n<!-- hongdown-disable-file -->\n\nx  y\n".toList := by decide +kernel
example := c113_off_partial (exOffCx "disable") ⟨1, 1, 1, 1⟩ ⟨1, 1, 1, 1⟩ ((exOff "disable").take 1) ((exOff "disable").drop 2)
  ⟨3, 1, 3, 25⟩ [] "<!-- hongdown-disable -->\n".toList .disable (by decide +kernel) (by decide +kernel) (by decide +kernel)
  (by decide +kernel) (by decide +kernel) (by decide +kernel) (.inl rfl)

/-- **C113.** False of the directive that turns formatting on again: it may stand between a link and its definition. -/
theorem c113_enable_false :
    ¬ ∀ (cx : Cx) (p q : Pos) (A B : List Node) (r : Pos) (literal : List Char),
      wellPlacedDoc (A ++ .mk (.htmlBlock literal) r [] :: B) = true → noteFreeList (A ++ .mk (.htmlBlock literal) r [] :: B) = true →
      (∀ n ∈ A, n.directive = none ∧ n.isPlainHtml = false) → parseDirective literal = some .enable →
      (formatDoc cx (.mk .document q A)).output <+:
        (formatDoc cx (.mk .document p (A ++ .mk (.htmlBlock literal) r [] :: B))).output := by
  intro H
  have := H (exOffCx "enable") ⟨1, 1, 1, 1⟩ ⟨1, 1, 1, 1⟩ ((exOff "enable").take 1) ((exOff "enable").drop 2)
    ⟨3, 1, 3, 24⟩ "<!-- hongdown-enable -->\n".toList (by decide +kernel) (by decide +kernel) (by decide +kernel) (by decide +kernel)
  exact absurd this (by decide +kernel)

/-- **C113.** False if an HTML block stands right before the directive: at the end of a document it would stand after the
definitions. -/
theorem c113_html_false :
    ¬ ∀ (cx : Cx) (p q : Pos) (A B : List Node) (r : Pos) (literal : List Char) (d : Directive),
      wellPlacedDoc (A ++ .mk (.htmlBlock literal) r [] :: B) = true → noteFreeList (A ++ .mk (.htmlBlock literal) r [] :: B) = true →
      (∀ n ∈ A, n.directive = none) → parseDirective literal = some d → TurnsOff d →
      (formatDoc cx (.mk .document q A)).output <+:
        (formatDoc cx (.mk .document p (A ++ .mk (.htmlBlock literal) r [] :: B))).output := by
  intro H
  have := H codeCx ⟨1, 1, 1, 1⟩ ⟨1, 1, 1, 1⟩
    [exPar [exLink "a" "https://a.example/"], .mk (.htmlBlock "<br>\n".toList) ⟨3, 1, 3, 4⟩ []] []
    ⟨5, 1, 5, 25⟩ "<!-- hongdown-disable -->\n".toList .disable (by decide +kernel) (by decide +kernel) (by decide +kernel)
    (by decide +kernel) (.inl rfl)
  exact absurd this (by decide +kernel)

/-- A footnote used before a region without formatting and defined in it. -/
def exNoteOff : List Node :=
  [.mk .paragraph ⟨1, 1, 1, 5⟩ [exText "a", .mk (.footnoteReference "n".toList) ⟨1, 2, 1, 5⟩ []], exDirective "disable" 3,
   .mk (.footnoteDefinition "n".toList) ⟨5, 1, 5, 12⟩ [exPar [exText "note"]]]

/-- **C113.** False of footnotes: one that is defined in the region without formatting, and used before, leaves the
region, so that what is written before the directive is not what the document up to there would be. -/
theorem c113_note_false :
    ¬ ∀ (cx : Cx) (p q : Pos) (A B : List Node) (r : Pos) (literal : List Char) (d : Directive),
      wellPlacedDoc (A ++ .mk (.htmlBlock literal) r [] :: B) = true → noteFreeList A = true →
      (∀ n ∈ A, n.directive = none ∧ n.isPlainHtml = false) → parseDirective literal = some d → TurnsOff d →
      (formatDoc cx (.mk .document q A)).output ++ offText A.isEmpty d literal <+:
        (formatDoc cx (.mk .document p (A ++ .mk (.htmlBlock literal) r [] :: B))).output := by
  intro H
  have := H codeCx ⟨1, 1, 1, 1⟩ ⟨1, 1, 1, 1⟩ (exNoteOff.take 1) (exNoteOff.drop 2) ⟨3, 1, 3, 25⟩
    "<!-- hongdown-disable -->\n".toList .disable (by decide +kernel) (by decide +kernel) (by decide +kernel) (by decide +kernel)
    (.inl rfl)
  exact absurd this (by decide +kernel)

example : (formatDoc codeCx (exDoc exNoteOff)).output =
    "a[^n]\n\n[^n]: note\n\n<!-- hongdown-disable -->\n".toList := by decide +kernel

end Hongdown.Props
