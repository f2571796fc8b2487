import Verif.Lemmas.FileEndDoc
import Verif.Props.Quote

/-!
# The end of a file (STYLE.md:457-459)
-/

namespace Hongdown.Props
open Model Spec

/-- **C101 (partial).** Full statement: every document that is not empty ends with exactly one line break
(`c101_item_false`, `c101_front_matter_false`). It holds for documents without footnotes and without
`disable-file` if the last block is one of `BlockEnd`: text, code, HTML, tables, and lists, quotes and
descriptions that end with such blocks. Link definitions and trailing HTML after the last block included. -/
theorem c101_document_partial (cx : Cx) (p : Pos) (A : List Node) (n : Node) (hw : wellPlacedDoc (A ++ [n]) = true)
    (hn : noteFreeList (A ++ [n]) = true) (hd : ∀ m ∈ A ++ [n], m.directive ≠ some .disableFile)
    (hu : ∀ r ∈ namedRefs cx (A ++ [n]), r.url.getLast? ≠ some '\n') (he : BlockEnd cx n)
    (hs : ∀ s, extractSource cx n.pos = some s → ∃ c, s.getLast? = some c ∧ c ≠ '\n') :
    OneBreak (formatDoc cx (.mk .document p (A ++ [n]))).output :=
  document_end hw hn hd hu he hs

/-- **C101 (partial).** The same for a single block in any state outside of lists, with no condition on the
other blocks. Full statement: for every block (`c101_item_false`). -/
theorem c101_block_partial (cx : Cx) (n : Node) (hw : wellPlaced n = true) (he : BlockEnd cx n) (nb : Bool) (st : St)
    (hl : st.listType = none) : OneBreak (ser cx n nb st).output :=
  block_end he hw nb st fun _ => hl

/-- The document of the example: a heading and an alert with a list, the last item of which ends with a
quote that holds a description list. -/
def exEnd : Node :=
  let p : Pos := ⟨1, 1, 1, 1⟩
  .mk (.alert .tip none) p ([] ++ [.mk (.list .bullet true) p ([exItem [exPar [exText "a"]]] ++
    [.mk (.taskItem (some 'x')) p ([exPar [exLink "b" "https://x.y"]] ++ [.mk .blockQuote p ([] ++
      [.mk .descriptionList p ([] ++ [.mk .descriptionItem p ([.mk .descriptionTerm p [exPar [exText "t"]]] ++
        [.mk .descriptionDetails p ([] ++ [exPar [exText "c"]])])])])])])])

theorem exEnd_ends : BlockEnd codeCx exEnd :=
  .alert _ _ _ _ _ (.list _ _ _ _ _ (.mk _ _ _ _ (.inr ⟨_, rfl⟩) (.block _ (.inr (.inr rfl)) (.quote _ _ _
    (.descriptions _ _ _ _ _ _ _ (.paragraph _ _ ⟨'c', by decide +kernel, by decide, by decide⟩))))))

example : OneBreak (formatDoc codeCx (.mk .document ⟨1, 1, 1, 1⟩ ([.mk (.heading 2) ⟨1, 1, 1, 1⟩ [exText "T"]] ++ [exEnd]))).output :=
  c101_document_partial codeCx _ _ _ (by decide +kernel) (by decide +kernel) (by decide +kernel) (by decide +kernel)
    exEnd_ends (fun s h => by rw [show extractSource codeCx exEnd.pos = none by decide +kernel] at h; cases h)

example : (formatDoc codeCx (exDoc [.mk (.heading 2) ⟨1, 1, 1, 1⟩ [exText "T"], exEnd])).output =
    "T\n-\n\n> [!TIP]\n>  -  a\n>  -  [x] [b]\n\n>     > > t\n    > > :   c\n\n[b]: https://x.y\n".toList := by decide +kernel

/-- A list whose last item ends with a heading. -/
def exEndItem : Cx := withSource codeCx "- ### T\n".toList

/-- **C101 is false** for a list whose last item ends with a heading: the file ends with a blank line. -/
theorem c101_item_false : ¬ ∀ (cx : Cx) (p : Pos) (cs : List Node), cs ≠ [] → wellPlacedDoc cs = true →
    noteFreeList cs = true → (∀ m ∈ cs, m.directive = none) → cx.sourceLines ≠ [] →
    OneBreak (formatDoc cx (.mk .document p cs)).output := by
  intro h
  obtain ⟨u, c, e, hc⟩ := h exEndItem ⟨1, 1, 1, 7⟩
    [.mk (.list .bullet true) ⟨1, 1, 1, 7⟩ [.mk .item ⟨1, 1, 1, 7⟩ [.mk (.heading 3) ⟨1, 3, 1, 7⟩ [.mk (.text ['T']) ⟨1, 7, 1, 7⟩ []]]]]
    (by simp) (by decide +kernel) (by decide +kernel) (by decide +kernel) (by decide +kernel)
  have e2 : (formatDoc exEndItem (.mk .document ⟨1, 1, 1, 7⟩
    [.mk (.list .bullet true) ⟨1, 1, 1, 7⟩ [.mk .item ⟨1, 1, 1, 7⟩ [.mk (.heading 3) ⟨1, 3, 1, 7⟩ [.mk (.text ['T']) ⟨1, 7, 1, 7⟩ []]]]])).output =
      " -  ### T".toList ++ ['\n', '\n'] := by decide +kernel
  rw [e2] at e
  have := (List.append_inj' e rfl).2
  simp only [List.cons.injEq] at this
  exact hc this.1.symm

/-- **C101 is false** for a file with front matter only: it ends with a blank line. -/
theorem c101_front_matter_false : ¬ ∀ (cx : Cx) (p : Pos) (cs : List Node), cs ≠ [] → wellPlacedDoc cs = true →
    noteFreeList cs = true → (∀ m ∈ cs, m.directive = none) → (∀ m ∈ cs, m.isList = false) → cx.sourceLines ≠ [] →
    OneBreak (formatDoc cx (.mk .document p cs)).output := by
  intro h
  obtain ⟨u, c, e, hc⟩ := h (withSource codeCx "---\na: b\n---\n".toList) ⟨1, 1, 3, 3⟩
    [.mk (.frontMatter "---\na: b\n---\n".toList) ⟨1, 1, 3, 3⟩ []]
    (by simp) (by decide +kernel) (by decide +kernel) (by decide +kernel) (by decide +kernel) (by decide +kernel)
  have e2 : (formatDoc (withSource codeCx "---\na: b\n---\n".toList) (.mk .document ⟨1, 1, 3, 3⟩
    [.mk (.frontMatter "---\na: b\n---\n".toList) ⟨1, 1, 3, 3⟩ []])).output =
      "---\na: b\n---".toList ++ ['\n', '\n'] := by decide +kernel
  rw [e2] at e
  have := (List.append_inj' e rfl).2
  simp only [List.cons.injEq] at this
  exact hc this.1.symm

end Hongdown.Props
