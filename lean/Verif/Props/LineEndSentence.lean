import Verif.Lemmas.FoldSpace
import Verif.Props.Sentence
import Verif.Props.LineEnd

/-!
# The ends of the lines of headings in sentence case (src/serializer/document.rs:421-458)
-/

namespace Hongdown.Props
open Model Spec

theorem ws_fold {d : Char} (h : isWs d = true) :
    (d.toNat < 65 ∨ 122 < d.toNat) ∧ d ∉ ['‘', '’', '“', '”', '\'', '"'] := by
  constructor
  · simp only [isWs, Bool.or_eq_true, Bool.and_eq_true, decide_eq_true_eq, beq_iff_eq] at h
    omega
  · intro hm
    have : ∀ c ∈ ['‘', '’', '“', '”', '\'', '"'], isWs c = false := by decide
    rw [this d hm] at h
    cases h

theorem foldAscii_one (c : Char) : ∃ d, foldAscii c = [d] := by
  unfold foldAscii
  split
  · exact ⟨_, rfl⟩
  · split <;> exact ⟨_, rfl⟩

theorem foldAscii_space : FoldsSpace foldAscii where
  keeps c h := by
    obtain ⟨d, e⟩ := foldAscii_one c
    have := (foldAscii_mem (ws_fold h).1 (ws_fold h).2).mpr (rfl : c = c)
    rw [e, List.mem_singleton] at this
    rw [e, ← this]
  some c := by
    obtain ⟨d, e⟩ := foldAscii_one c
    simp [e]
  visible c h d hd := by
    cases hw : isWs d with
    | false => rfl
    | true =>
      have := (foldAscii_mem (ws_fold hw).1 (ws_fold hw).2).mp hd
      rw [this, hw] at h
      cases h

/-- **C92 (partial).** Full statement: see `c92_document_partial`, which has sentence case turned off; and for headings
with the two characters left out here, see `c40_pieces_partial`. No line of a heading in sentence case ends in white
space, with any nouns, declared before it or set. -/
theorem c92_sentence_partial {f : Char → List Char} (cx : Cx) (hard : Bool) (hf : CaseFold cx.uni f) (hfs : FoldsSpace f)
    (hs : cx.opts.headingSentenceCase = true) (before : List Node) (level : Nat) (q : Pos) (cs : List Node) (nb : Bool)
    (n : Nouns) (hnb : n.builtin = cx.properNouns) (hnp : n.proper = cx.opts.headingProperNouns ++ declaredProper before)
    (hnc : n.common = cx.opts.headingCommonNouns ++ declaredCommon before) (hn : NounsOk f n)
    (hm : '�' ∉ (collectTexts cx cs).1) (hd : 'ı' ∉ (collectTexts cx cs).1) (hl : '\n' ∉ (collectTexts cx cs).1)
    (hv : EndsVisible (collectTexts cx cs).1) : TidyLines hard (formatted cx before (.mk (.heading level) q cs) nb) := by
  have hn' : n = headingNouns cx { directiveProperNouns := declaredProper before, directiveCommonNouns := declaredCommon before } := by
    cases n; subst hnb hnp hnc; rfl
  have h := c40_fold_partial hf hn _ hm hd
  rw [formatted, ser_heading_output, headingShown, if_pos hs, ← hn']
  simpa using (headingText_th (h := hard) (cx := cx) level (fold_newline hfs h hl) (fold_endsVisible hfs h hv)).tidy

example : (formatDoc sentenceCx (exDoc [.mk (.heading 3) ⟨1, 1, 1, 1⟩ [exText "The Swift Guide"]])).output =
    "### The swift guide\n".toList := by decide +kernel

example : TidyLines false (formatted sentenceCx [] (.mk (.heading 3) ⟨1, 1, 1, 1⟩ [exText "The Swift Guide"]) false) :=
  c92_sentence_partial sentenceCx false foldAscii_ok foldAscii_space rfl [] 3 _ _ false
    ⟨sentenceCx.properNouns, sentenceCx.opts.headingProperNouns, sentenceCx.opts.headingCommonNouns⟩ rfl
    (by simp [declaredProper]) (by simp [declaredCommon]) ⟨by decide +kernel, by decide +kernel, by decide +kernel⟩
    (by decide +kernel) (by decide +kernel) (by decide +kernel) (by decide +kernel)

end Hongdown.Props
