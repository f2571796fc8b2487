import Verif.Props.LineEndSentence
import Verif.Props.FileEnd

/-!
# The ends of headings in sentence case (src/serializer/document.rs:421-458)
-/

namespace Hongdown.Props
open Model Spec

/-- **C101 (partial).** Full statement: see `c101_block_partial`, which has sentence case turned off for headings; and
for headings with underlines and with the two characters left out here, see `c40_pieces_partial`. A heading with number
signs in sentence case ends with exactly one line break, with any nouns, declared before it or set. -/
theorem c101_sentence_partial {f : Char → List Char} (cx : Cx) (hf : CaseFold cx.uni f) (hfs : FoldsSpace f)
    (hs : cx.opts.headingSentenceCase = true) (before : List Node) (level : Nat) (q : Pos) (cs : List Node) (nb : Bool)
    (n : Nouns) (hnb : n.builtin = cx.properNouns) (hnp : n.proper = cx.opts.headingProperNouns ++ declaredProper before)
    (hnc : n.common = cx.opts.headingCommonNouns ++ declaredCommon before) (hn : NounsOk f n)
    (hm : '�' ∉ (collectTexts cx cs).1) (hd : 'ı' ∉ (collectTexts cx cs).1) (hl : '\n' ∉ (collectTexts cx cs).1)
    (h3 : 3 ≤ level) : OneBreak (formatted cx before (.mk (.heading level) q cs) nb) := by
  have hn' : n = headingNouns cx { directiveProperNouns := declaredProper before, directiveCommonNouns := declaredCommon before } := by
    cases n; subst hnb hnp hnc; rfl
  have h := fold_newline hfs (c40_fold_partial hf hn _ hm hd) hl
  rw [formatted, ser_heading_output, headingShown, if_pos hs, ← hn', headingText, if_neg (by omega), if_neg (by omega)]
  generalize toSentenceCase cx.uni n (collectTexts cx cs).1 = text at h
  rcases List.eq_nil_or_concat text with rfl | ⟨v, d, rfl⟩
  · exact ⟨List.replicate level '#', ' ', by simp, by decide⟩
  · refine ⟨List.replicate level '#' ++ ' ' :: v, d, by simp, ?_⟩
    rintro rfl
    exact h (by simp)

example : OneBreak (formatted sentenceCx [] (.mk (.heading 3) ⟨1, 1, 1, 1⟩ [exText "The Swift Guide"]) false) :=
  c101_sentence_partial sentenceCx foldAscii_ok foldAscii_space rfl [] 3 _ _ false
    ⟨sentenceCx.properNouns, sentenceCx.opts.headingProperNouns, sentenceCx.opts.headingCommonNouns⟩ rfl
    (by simp [declaredProper]) (by simp [declaredCommon]) ⟨by decide +kernel, by decide +kernel, by decide +kernel⟩
    (by decide +kernel) (by decide +kernel) (by decide +kernel) (by decide)

end Hongdown.Props
