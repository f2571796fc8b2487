import Verif.Lemmas.FileEndNotes
import Verif.Props.FileEnd

/-!
# The end of a file with footnotes (STYLE.md:457-459)
-/

namespace Hongdown.Props
open Model Spec

/-- **C101 (partial).** Full statement: see `c101_document_partial`; footnotes of other blocks too
(`c101_note_false`). With footnotes of one paragraph, anywhere in the document, definitions after the last block
included: the file ends with exactly one line break. -/
theorem c101_notes_partial (cx : Cx) (p : Pos) (A F : List Node) (n : Node) (hw : wellPlacedDoc (A ++ n :: F) = true)
    (hn : ∀ c ∈ A ++ n :: F, c.isFootnoteDefinition = false → noteFree c = true)
    (hdef : ∀ c ∈ A ++ n :: F, c.isFootnoteDefinition = true → ∃ q is, c.children = [.mk .paragraph q is])
    (hnf : n.isFootnoteDefinition = false) (hF : ∀ c ∈ F, c.isFootnoteDefinition = true)
    (hd : ∀ m ∈ A ++ n :: F, m.directive ≠ some .disableFile)
    (hu : ∀ r ∈ namedRefs cx (A ++ n :: F), r.url.getLast? ≠ some '\n') (he : BlockEnd cx n)
    (hs : ∀ s, extractSource cx n.pos = some s → ∃ c, s.getLast? = some c ∧ c ≠ '\n') :
    OneBreak (formatDoc cx (.mk .document p (A ++ n :: F))).output :=
  document_note_end hw hn hdef hnf hF hd hu he hs

/-- A paragraph with two references to footnotes, and the footnotes, one with a link. -/
def exEndNotes : List Node :=
  let ref s q : Node := .mk (.footnoteReference s) q []
  [.mk .paragraph ⟨1, 1, 1, 10⟩ [exText "a", ref "n".toList ⟨1, 2, 1, 5⟩, ref "m".toList ⟨1, 6, 1, 9⟩, exText "b"],
   .mk (.footnoteDefinition "n".toList) ⟨3, 1, 3, 30⟩ [exPar [exLink "c" "https://c.example/"]],
   .mk (.footnoteDefinition "m".toList) ⟨5, 1, 5, 10⟩ [exPar [exText "d"]]]

example : (formatDoc codeCx (exDoc exEndNotes)).output =
    "a[^n][^m]b\n\n[^n]: [c]\n[^m]: d\n\n[c]: https://c.example/\n".toList := by decide +kernel

example : OneBreak (formatDoc codeCx (exDoc exEndNotes)).output :=
  c101_notes_partial codeCx _ [] (exEndNotes.drop 1) (exEndNotes.headD (exPar [])) (by decide +kernel) (by decide +kernel)
    (by
      intro c hc h
      rcases List.mem_cons.mp hc with rfl | hc
      · cases h
      · rcases List.mem_cons.mp hc with rfl | hc
        · exact ⟨_, _, rfl⟩
        · rcases List.mem_cons.mp hc with rfl | hc
          · exact ⟨_, _, rfl⟩
          · cases hc)
    rfl (by decide +kernel) (by decide +kernel) (by decide +kernel)
    (.paragraph _ _ ⟨'b', by decide +kernel, by decide, by decide⟩)
    (fun s h => by rw [show extractSource codeCx (exEndNotes.headD (exPar [])).pos = none by decide +kernel] at h; cases h)

/-- **C101 is false** for a footnote that holds an empty quote: nothing is written for it but the blank line before it. -/
theorem c101_note_false : ¬ ∀ (cx : Cx) (p : Pos) (n : Node) (F : List Node), wellPlacedDoc (n :: F) = true →
    (∀ c ∈ n :: F, noteFreeList c.children = true) → (∀ m ∈ n :: F, m.directive = none) →
    BlockEnd cx n → (∀ c ∈ F, c.isFootnoteDefinition = true) → cx.sourceLines ≠ [] →
    OneBreak (formatDoc cx (.mk .document p (n :: F))).output := by
  intro h
  obtain ⟨u, c, e, hc⟩ := h (withSource codeCx "a[^n]b\n\n[^n]: >\n".toList) ⟨1, 1, 3, 7⟩
    (.mk .paragraph ⟨1, 1, 1, 6⟩ [.mk (.text ['a']) ⟨1, 1, 1, 1⟩ [], .mk (.footnoteReference ['n']) ⟨1, 2, 1, 5⟩ [],
      .mk (.text ['b']) ⟨1, 6, 1, 6⟩ []])
    [.mk (.footnoteDefinition ['n']) ⟨3, 1, 3, 7⟩ [.mk .blockQuote ⟨3, 7, 3, 7⟩ []]]
    (by decide +kernel) (by decide +kernel) (by decide +kernel)
    (.paragraph _ _ ⟨'b', by decide +kernel, by decide, by decide⟩) (by decide +kernel) (by decide +kernel)
  have e2 : (formatDoc (withSource codeCx "a[^n]b\n\n[^n]: >\n".toList) (.mk .document ⟨1, 1, 3, 7⟩
    [.mk .paragraph ⟨1, 1, 1, 6⟩ [.mk (.text ['a']) ⟨1, 1, 1, 1⟩ [], .mk (.footnoteReference ['n']) ⟨1, 2, 1, 5⟩ [],
      .mk (.text ['b']) ⟨1, 6, 1, 6⟩ []],
     .mk (.footnoteDefinition ['n']) ⟨3, 1, 3, 7⟩ [.mk .blockQuote ⟨3, 7, 3, 7⟩ []]])).output =
      "a[^n]b".toList ++ ['\n', '\n'] := by decide +kernel
  rw [e2] at e
  have := (List.append_inj' e rfl).2
  simp only [List.cons.injEq] at this
  exact hc this.1.symm

end Hongdown.Props
