import Verif.Lemmas.Prefix
import Verif.Props.Frame

/-!
# C96: references are defined at the end of the section that uses them
-/

namespace Hongdown.Props
open Model Spec

/-- **C96 (partial).** Full statement: for every heading, whatever stands before it, and footnotes included
(`c96_level_false`, `c96_html_false`, `c96_note_false`). Up to a heading of level 2 or 3 a document is written exactly as if
it ended there: the text of the blocks before, followed by the definitions of the references they use. Nothing from
the heading on has an effect on what is written before it, and no definition is left for later. Directives may
stand before the heading, except the one that turns formatting off for the rest of the file. -/
theorem c96_section_partial (cx : Cx) (p q : Pos) (A B : List Node) (h : Node)
    (hw : wellPlacedDoc (A ++ h :: B) = true) (hn : noteFreeList A = true)
    (hB : ∀ n ∈ B, n.isFootnoteDefinition = false) (hd : ∀ n ∈ A, n.directive ≠ some .disableFile)
    (hl : ∀ n, A.getLast? = some n → n.isPlainHtml = false) (hA : A ≠ [])
    (hh : h.headingLevel = some 2 ∨ h.headingLevel = some 3) :
    ∃ Y, (formatDoc cx (.mk .document p (A ++ h :: B))).output =
        (formatDoc cx (.mk .document q A)).output ++ gapBetween A h ++ Y ∧
      ((∀ n ∈ A, n.directive = none) → formatted cx A h (nextIsBracket B) <+: Y) := by
  obtain ⟨Y, h1, h2⟩ := formatDoc_before (cx := cx) (p := p) (q := q) hw hn hB hd hl hA hh
  exact ⟨Y, h1, fun hno => let ⟨Z, hz⟩ := h2 hno; ⟨Z, hz.symm⟩⟩

/-- **C96 (partial).** For documents without directives and for links in paragraphs, at any depth: a link that is written as a
reference has a definition before the next heading of level 2 or 3. -/
theorem c96_defined_partial (cx : Cx) (p : Pos) (A B : List Node) (h : Node)
    (hw : wellPlacedDoc (A ++ h :: B) = true) (hn : noteFreeList A = true)
    (hB : ∀ n ∈ B, n.isFootnoteDefinition = false) (hd : ∀ n ∈ A, n.directive = none)
    (hl : ∀ n, A.getLast? = some n → n.isPlainHtml = false)
    (hh : h.headingLevel = some 2 ∨ h.headingLevel = some 3) (c : Node) (hc : c ∈ A) (q : Pos) (is : List Node)
    (hq : Within (.mk .paragraph q is) c) (ha : abbreviationDef cx q = none)
    (l : Node) (hi : Inside l is) (r : Ref) (hr : Registers cx l r) :
    ∃ X Y, (formatDoc cx (.mk .document p (A ++ h :: B))).output =
        X ++ gapBetween A h ++ formatted cx A h (nextIsBracket B) ++ Y ∧
      ∃ url title, referenceText ⟨r.label, url, title⟩ <:+: X := by
  obtain ⟨Y, h1, h2⟩ := formatDoc_before (cx := cx) (p := p) (q := p) hw hn hB (fun n hm => by simp [hd n hm]) hl
    (fun e => by rw [e] at hc; cases hc) hh
  obtain ⟨Z, hz⟩ := h2 hd
  refine ⟨_, Z, by rw [h1, hz, List.append_assoc _ _ Z], ?_⟩
  have hwA : wellPlacedDoc A = true := by
    rw [wellPlacedDoc, Bool.and_eq_true] at hw ⊢
    rw [List.all_append, Bool.and_eq_true] at hw
    exact ⟨hw.1.1, (wellPlacedList_append.mp hw.2).1⟩
  exact c18_document_all cx p A hwA hd c hc q is hq ha l hi r hr

/-- A link, a heading of some level, and another link. -/
def exTwoParts (level : Nat) : List Node :=
  [exPar [exLink "a" "https://a.example/"], .mk (.heading level) ⟨3, 1, 3, 4⟩ [exText "T"],
   exPar [exLink "b" "https://b.example/", exLink "a" "https://a.example/"]]

example : (formatDoc codeCx (exDoc (exTwoParts 2))).output =
    "[a]\n\n[a]: https://a.example/\n\n\nT\n-\n\n[b][][a]\n\n[b]: https://b.example/\n".toList := by decide +kernel
example : (formatDoc codeCx (exDoc ((exTwoParts 2).take 1))).output = "[a]\n\n[a]: https://a.example/\n".toList := by
  decide +kernel
example := c96_section_partial codeCx ⟨1, 1, 1, 1⟩ ⟨1, 1, 1, 1⟩ ((exTwoParts 2).take 1) ((exTwoParts 2).drop 2)
  (.mk (.heading 2) ⟨3, 1, 3, 4⟩ [exText "T"]) (by decide +kernel) (by decide +kernel) (by decide +kernel) (by decide +kernel)
  (by decide +kernel) (by decide +kernel) (.inl rfl)

/-- **C96.** False for the other levels: before a heading of level 1, 4, 5 or 6 nothing is defined, so that the
references of one chapter (or of a part of a third level section) are defined in the next one. -/
theorem c96_level_false (level : Nat) (hlevel : level = 1 ∨ level = 4 ∨ level = 5 ∨ level = 6) :
    ¬ ∀ (cx : Cx) (p q : Pos) (A B : List Node) (h : Node), wellPlacedDoc (A ++ h :: B) = true →
      noteFreeList (A ++ h :: B) = true → (∀ n ∈ A ++ h :: B, n.directive = none ∧ n.isPlainHtml = false) → A ≠ [] →
      h.headingLevel = some level →
      (formatDoc cx (.mk .document q A)).output <+: (formatDoc cx (.mk .document p (A ++ h :: B))).output := by
  intro H
  have := H codeCx ⟨1, 1, 1, 1⟩ ⟨1, 1, 1, 1⟩ ((exTwoParts level).take 1) ((exTwoParts level).drop 2)
    (.mk (.heading level) ⟨3, 1, 3, 4⟩ [exText "T"])
  rcases hlevel with rfl | rfl | rfl | rfl <;>
    exact absurd (this (by decide +kernel) (by decide +kernel) (by decide +kernel) (by decide +kernel) rfl) (by decide +kernel)

example : (formatDoc codeCx (exDoc (exTwoParts 4))).output =
    "[a]\n\n#### T\n\n[b][][a]\n\n[a]: https://a.example/\n[b]: https://b.example/\n".toList := by decide +kernel

/-- **C96.** False if an HTML block is the last one of the section: at the end of a document it would stand
after the definitions, before a heading it stands before them. -/
theorem c96_html_false :
    ¬ ∀ (cx : Cx) (p q : Pos) (A B : List Node) (h : Node), wellPlacedDoc (A ++ h :: B) = true →
      noteFreeList (A ++ h :: B) = true → (∀ n ∈ A ++ h :: B, n.directive = none) → A ≠ [] →
      (h.headingLevel = some 2 ∨ h.headingLevel = some 3) →
      (formatDoc cx (.mk .document q A)).output <+: (formatDoc cx (.mk .document p (A ++ h :: B))).output := by
  intro H
  have := H codeCx ⟨1, 1, 1, 1⟩ ⟨1, 1, 1, 1⟩
    [exPar [exLink "a" "https://a.example/"], .mk (.htmlBlock "<br>\n".toList) ⟨3, 1, 3, 4⟩ []] []
    (.mk (.heading 2) ⟨5, 1, 5, 4⟩ [exText "T"]) (by decide +kernel) (by decide +kernel) (by decide +kernel)
    (by simp) (.inl rfl)
  exact absurd this (by decide +kernel)

/-- **C96.** False if a footnote is defined after the heading: the definition is brought to the section that refers
to it. -/
theorem c96_note_false :
    ¬ ∀ (cx : Cx) (p q : Pos) (A B : List Node) (h : Node), wellPlacedDoc (A ++ h :: B) = true →
      noteFreeList A = true → (∀ n ∈ A ++ h :: B, n.directive = none ∧ n.isPlainHtml = false) → A ≠ [] →
      (h.headingLevel = some 2 ∨ h.headingLevel = some 3) →
      ∃ Y, (formatDoc cx (.mk .document p (A ++ h :: B))).output =
        (formatDoc cx (.mk .document q A)).output ++ gapBetween A h ++ formatted cx A h (nextIsBracket B) ++ Y := by
  intro H
  obtain ⟨Y, hY⟩ := H codeCx ⟨1, 1, 1, 1⟩ ⟨1, 1, 1, 1⟩
    [.mk .paragraph ⟨1, 1, 1, 5⟩ [exText "a", .mk (.footnoteReference "n".toList) ⟨1, 2, 1, 5⟩ []]]
    [.mk (.footnoteDefinition "n".toList) ⟨5, 1, 5, 12⟩ [exPar [exText "note"]]]
    (.mk (.heading 2) ⟨3, 1, 3, 4⟩ [exText "T"]) (by decide +kernel) (by decide +kernel) (by decide +kernel) (by decide)
    (.inl rfl)
  have : "a[^n]\n\n\nT\n".toList <+: "a[^n]\n\n[^n]: note\n\n\nT\n-\n".toList := by
    have e1 : (formatDoc codeCx (exDoc [.mk .paragraph ⟨1, 1, 1, 5⟩ [exText "a", .mk (.footnoteReference "n".toList) ⟨1, 2, 1, 5⟩ []],
      .mk (.heading 2) ⟨3, 1, 3, 4⟩ [exText "T"],
      .mk (.footnoteDefinition "n".toList) ⟨5, 1, 5, 12⟩ [exPar [exText "note"]]])).output =
        "a[^n]\n\n[^n]: note\n\n\nT\n-\n".toList := by decide +kernel
    have e2 : (formatDoc codeCx (exDoc [.mk .paragraph ⟨1, 1, 1, 5⟩
      [exText "a", .mk (.footnoteReference "n".toList) ⟨1, 2, 1, 5⟩ []]])).output ++ ['\n', '\n'] ++
      formatted codeCx [.mk .paragraph ⟨1, 1, 1, 5⟩ [exText "a", .mk (.footnoteReference "n".toList) ⟨1, 2, 1, 5⟩ []]]
        (.mk (.heading 2) ⟨3, 1, 3, 4⟩ [exText "T"]) false = "a[^n]\n\n\nT\n".toList ++ "-\n".toList := by decide +kernel
    rw [← e1]
    exact ⟨"-\n".toList ++ Y, by rw [← List.append_assoc, ← e2]; exact hY.symm⟩
  exact absurd this (by decide +kernel)

end Hongdown.Props
