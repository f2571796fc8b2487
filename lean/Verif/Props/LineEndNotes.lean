import Verif.Lemmas.LineEndNotes
import Verif.Props.LineEnd
import Verif.Props.FileEndNotes
import Verif.Props.Document

/-!
# The ends of the lines of documents with footnotes and directives (src/serializer/mod.rs:403-481)
-/

namespace Hongdown.Props
open Model Spec

/-- **C92 (partial).** Full statement: see `c92_document_partial`, and footnotes of other blocks too
(`c92_note_false`). With footnotes of one paragraph with something to see in it, hard line breaks in them or not, and
with directives: if the lines of the source after a directive that turns formatting
off are so, every line of the document is empty, or ends in a character that is no white space, or, if there are hard
line breaks outside of footnotes, in the two spaces of one. -/
theorem c92_directives_partial (cx : Cx) (hard : Bool) (p : Pos) (cs : List Node) (ho : TidyOptions cx.opts)
    (hw : wellPlacedDoc cs = true) (ht : ∀ n ∈ cs, TidyNode cx hard false false n ∨ TidyNote cx n)
    (hs : ∀ A d B, cs = A ++ d :: B → stopsFormatting d = true →
      ∀ n ∈ B, ∀ s, extractSource cx n.pos = some s → TidySource hard s)
    (hf : ∀ n ∈ cs, n.directive = some .disableFile →
      ∀ l ∈ cx.sourceLines.drop n.pos.endLine, '\n' ∉ l ∧ TidyLine hard l) :
    TidyLines hard (formatDoc cx (.mk .document p cs)).output :=
  document_tidyNotes ho hw hf ht hs

/-- The same without directives. -/
theorem c92_notes_partial (cx : Cx) (hard : Bool) (p : Pos) (cs : List Node) (ho : TidyOptions cx.opts)
    (hw : wellPlacedDoc cs = true) (hd : ∀ n ∈ cs, n.directive = none)
    (ht : ∀ n ∈ cs, TidyNode cx hard false false n ∨ TidyNote cx n) :
    TidyLines hard (formatDoc cx (.mk .document p cs)).output :=
  c92_directives_partial cx hard p cs ho hw ht (fun A d B e h => by
    rw [stopsFormatting, hd d (by rw [e]; simp)] at h; cases h) (fun n hn e => by rw [hd n hn] at e; cases e)

/-- Two paragraphs, with formatting turned off for the second of them, and another. -/
def exLineOff : List Node :=
  [exLine "a" 1, exDirective "disable-next-line" 3, .mk .paragraph ⟨4, 1, 5, 1⟩
    [.mk (.text ['b']) ⟨4, 1, 4, 1⟩ [], .mk .softBreak ⟨4, 4, 4, 4⟩ [], .mk (.text ['c']) ⟨5, 1, 5, 1⟩ []], exLine "d" 7]

/-- Its source. -/
def exLineOffCx (s : String) : Cx :=
  withSource codeCx ("a \n\n<!-- hongdown-disable-next-line -->\n" ++ s ++ "\nc\n\nd\n").toList

example : (formatDoc (exLineOffCx "b") (exDoc exLineOff)).output =
    "a\n\n<!-- hongdown-disable-next-line -->\n\nb\nc\n\nd\n".toList := by decide +kernel

/-- White space at the end of a line is kept where formatting is off. -/
example : (formatDoc (exLineOffCx "b ") (exDoc exLineOff)).output =
    "a\n\n<!-- hongdown-disable-next-line -->\n\nb \nc\n\nd\n".toList := by decide +kernel

example : TidyLines false (formatDoc (exLineOffCx "b") (exDoc exLineOff)).output :=
  c92_directives_partial (exLineOffCx "b") false _ exLineOff tidyOptions_default (by decide +kernel) (by
    have h : ∀ n ∈ exLineOff, ∀ s, extractSource (exLineOffCx "b") n.pos = some s →
        ¬ ("*[".toList <+: trim s ∧ "]:".toList <:+: trim s) := by
      intro n hn s e
      have h2 : ∀ n ∈ exLineOff, (extractSource (exLineOffCx "b") n.pos).all (fun s => decide ¬ "*[".toList <+: trim s) = true := by
        decide +kernel
      have := h2 n hn
      rw [e] at this
      simp only [Option.all_some, decide_eq_true_eq] at this
      exact fun h => this h.1
    intro n hn
    refine .inl ?_
    have h3 := h n hn
    rcases List.mem_cons.mp hn with rfl | hn
    · exact ⟨h3, by decide +kernel, by decide +kernel⟩
    · rcases List.mem_cons.mp hn with rfl | hn
      · exact ⟨by decide +kernel, _, _, rfl, by decide⟩
      · rcases List.mem_cons.mp hn with rfl | hn
        · exact ⟨h3, by decide +kernel, by decide +kernel⟩
        · rcases List.mem_cons.mp hn with rfl | hn
          · exact ⟨h3, by decide +kernel, by decide +kernel⟩
          · cases hn)
    (by
      have h : ∀ n ∈ exLineOff.tail, (extractSource (exLineOffCx "b") n.pos).all (fun s =>
          decide (TidyLines false s) && s.head?.any (· ≠ '\n')) = true := by decide +kernel
      intro A d B e hd n hn s es
      have hm : n ∈ exLineOff.tail := by
        rw [e]
        cases A with
        | nil => exact hn
        | cons a A => simp [hn]
      have := h n hm
      rw [es] at this
      simp only [Option.all_some, Bool.and_eq_true, decide_eq_true_eq] at this
      refine ⟨this.1, ?_⟩
      cases hh : s.head? with
      | none => rw [hh] at this; simp at this
      | some c => rw [hh] at this; exact ⟨c, rfl, by simpa using this.2⟩)
    (fun n hn h => absurd h ((by decide +kernel : ∀ n ∈ exLineOff, n.directive ≠ some .disableFile) n hn))

/-- A paragraph, and the rest of the file with formatting turned off. -/
def exLineFile : List Node := [exLine "a" 1, exDirective "disable-file" 3, exLine "b" 5]

example : (formatDoc (withSource codeCx "a \n\n<!-- hongdown-disable-file -->\n\nb\n".toList) (exDoc exLineFile)).output =
    "a\n<!-- hongdown-disable-file -->\n\nb\n".toList := by decide +kernel


/-- A paragraph, and a footnote with a hard line break in it and white space at its end. -/
def exLineNotes : List Node :=
  exEndNotes.take 2 ++ [.mk (.footnoteDefinition "m".toList) ⟨5, 1, 6, 10⟩
    [exPar [exText "d", .mk .lineBreak ⟨5, 1, 5, 1⟩ [], exText "e "]]]

example : (formatDoc codeCx (exDoc exLineNotes)).output =
    "a[^n][^m]b\n\n[^n]: [c]\n[^m]: d e\n\n[c]: https://c.example/\n".toList := by decide +kernel

example : TidyLines false (formatDoc codeCx (exDoc exLineNotes)).output :=
  c92_notes_partial codeCx false _ exLineNotes tidyOptions_default (by decide +kernel) (by decide +kernel) (by
    have h : ∀ p, NoAbbreviation codeCx p := fun p s e => by simp [extractSource, codeCx] at e
    intro n hn
    rcases List.mem_cons.mp hn with rfl | hn
    · refine .inl ?_
      simp only [TidyNode, h, true_and]
      decide +kernel
    · rcases List.mem_cons.mp hn with rfl | hn
      · exact .inr ⟨_, _, _, _, rfl, by decide +kernel, by decide +kernel, by decide +kernel⟩
      · rcases List.mem_cons.mp hn with rfl | hn
        · exact .inr ⟨_, _, _, _, rfl, by decide +kernel, by decide +kernel, by decide +kernel⟩
        · cases hn)

/-- **C92 is false** for a footnote with nothing in it: a space is left after its colon. -/
theorem c92_note_false : ¬ ∀ (cx : Cx) (p q : Pos) (n : Node) (name : List Char) (cs : List Node), TidyOptions cx.opts →
    TidyNode cx false false false n → TidyNodes cx false false false cs →
    wellPlacedDoc [n, .mk (.footnoteDefinition name) q cs] = true → '\n' ∉ name → cx.sourceLines ≠ [] →
    TidyLines false (formatDoc cx (.mk .document p [n, .mk (.footnoteDefinition name) q cs])).output := by
  intro h
  have h1 := h (withSource codeCx "a[^n]b\n\n[^n]:\n".toList) ⟨1, 1, 3, 5⟩ ⟨3, 1, 3, 5⟩
    (.mk .paragraph ⟨1, 1, 1, 6⟩ [.mk (.text ['a']) ⟨1, 1, 1, 1⟩ [], .mk (.footnoteReference ['n']) ⟨1, 2, 1, 5⟩ [],
      .mk (.text ['b']) ⟨1, 6, 1, 6⟩ []]) ['n'] [] tidyOptions_default (by
      refine ⟨fun s e => ?_, by decide +kernel, by decide +kernel⟩
      rw [show extractSource (withSource codeCx "a[^n]b\n\n[^n]:\n".toList) ⟨1, 1, 1, 6⟩ = some "a[^n]b".toList by decide +kernel] at e
      cases e
      decide +kernel) trivial (by decide +kernel) (by decide) (by decide +kernel)
  revert h1
  decide +kernel

end Hongdown.Props
