import Verif.Lemmas.LineEndDoc
import Verif.Lemmas.Layout
import Verif.Props.Quote

/-!
# The ends of lines: C92
-/

namespace Hongdown.Props
open Model Spec

/-! ### Checking examples -/

instance (l : List Char) : Decidable (EndsVisible l) :=
  decidable_of_iff (l.getLast?.any (fun c => !isWs c) = true) (by
    rw [endsVisible_iff]
    cases l.getLast? <;> simp)

instance (l : List Char) : Decidable (Trimmed l) :=
  decidable_of_iff (EndsVisible l ∧ l.head?.any (fun c => !isWs c) = true) (by
    rw [Trimmed]
    cases l <;> simp)

instance (l : List Char) : Decidable (BreakLine l) :=
  decidable_of_iff (l.drop (l.length - 2) = [' ', ' '] ∧ EndsVisible (l.take (l.length - 2))) (by
    constructor
    · rintro ⟨h1, h2⟩
      exact ⟨_, by rw [← h1, List.take_append_drop], h2⟩
    · rintro ⟨u, rfl, h⟩
      simpa using h)

instance (hard : Bool) (l : List Char) : Decidable (TidyLine hard l) :=
  inferInstanceAs (Decidable (_ ∨ _))

instance (hard : Bool) (s : List Char) : Decidable (TidyLines hard s) :=
  inferInstanceAs (Decidable (∀ l ∈ splitOn '\n' s, TidyLine hard l))

instance (hard : Bool) (s : List Char) : Decidable (TidyText hard s) :=
  inferInstanceAs (Decidable (_ ∧ _))

instance (r : Ref) : Decidable (TidyRef r) := inferInstanceAs (Decidable (_ ∧ _))

theorem tidyOptions_default : TidyOptions defaultOptions :=
  ⟨by decide, by decide, by decide, by decide, by decide, by decide +kernel, by decide +kernel, rfl⟩

/-! ### Theorems -/

/-- **C92 (partial).** Full statement: without `TidyNode`. Every line of a block is empty, or ends in a
character that is no white space, or, if there are hard line breaks, in the two spaces of one. Missing: what
the negations below show. -/
theorem c92_block_partial (cx : Cx) (hard : Bool) (before : List Node) (n : Node) (nb : Bool) (ho : TidyOptions cx.opts)
    (hw : wellPlaced n = true) (hi : isItemLike n = false) (hn : TidyNode cx hard false false n) :
    TidyLines hard (formatted cx before n nb) := by
  obtain ⟨t, e, ht⟩ := (ser_tidy ho n nb false false hw hn).block hi
    { directiveProperNouns := declaredProper before, directiveCommonNouns := declaredCommon before }
    ⟨rfl, by simp, by simp, by simp, by simp⟩
  rw [formatted]
  rw [show ({ node := n, act := ser cx n nb } : Kid).act = ser cx n nb from rfl] at e
  rw [e]
  exact ht.tidy

/-- **C92 (partial).** The same for whole documents without directives and footnotes. Without hard line breaks
(`hard = false`) no line ends in white space at all. -/
theorem c92_document_partial (cx : Cx) (hard : Bool) (p : Pos) (cs : List Node) (ho : TidyOptions cx.opts)
    (hw : wellPlacedDoc cs = true) (hd : ∀ n ∈ cs, n.directive = none) (ht : TidyNodes cx hard false false cs) :
    TidyLines hard (formatDoc cx (.mk .document p cs)).output :=
  document_tidy ho hw hd ht

/-- A block quote. -/
def exQuoted (cs : List Node) : Node := .mk .blockQuote ⟨1, 1, 1, 1⟩ cs

/-- The document of the example: text with a hard and a soft line break and a link, a list with code and a
quote, a table, a description list, HTML. -/
def exTidy : List Node :=
  let p : Pos := ⟨1, 1, 1, 1⟩
  [exPar [exText "a", .mk .lineBreak p [], exText "b", .mk .softBreak p [],
      .mk (.link "https://x.y".toList "t".toList) p [exText "c"]],
   .mk (.list .bullet false) p [exItem [exPar [exText "b"], exPar [exText "c"]],
    .mk (.taskItem none) p [exPar [exText "d"], .mk (.codeBlock [] "x\n\ny\n".toList) p [], exQuoted [exPar [exText "e"], exPar [exText "f"]]]],
   .mk (.table [.left]) p [.mk .tableRow p [.mk .tableCell p [exText "h"]], .mk .tableRow p [.mk .tableCell p []]],
   .mk .descriptionList p [.mk .descriptionItem p [.mk .descriptionTerm p [exPar [exText "t"]],
      .mk .descriptionDetails p [exPar [exText "x"], .mk (.codeBlock "c".toList "z\n".toList) p []]]],
   .mk (.heading 2) p [exText "Title"], .mk .thematicBreak p [], .mk (.htmlBlock "<b>\n</b>\n".toList) p []]

example : wellPlacedDoc exTidy = true := by decide +kernel
example : ∀ n ∈ exTidy, n.directive = none := by decide +kernel
example : TidyNodes codeCx true false false exTidy := by
  have h : ∀ p, NoAbbreviation codeCx p := fun p s e => by simp [extractSource, codeCx] at e
  simp only [exTidy, TidyNodes, TidyNode, exPar, exItem, exQuoted, h, and_true, true_and]
  refine ⟨by decide +kernel, by decide +kernel, by decide +kernel, by decide +kernel, by decide +kernel,
    by decide +kernel, _, _, rfl, by decide⟩
example : (formatDoc codeCx (exDoc exTidy)).output =
    ("a  \nb\n[c]\n\n -  b\n\n    c\n\n -  [ ] d\n\n    ~~~~\n    x\n\n    y\n    ~~~~\n\n\n    > e\n    >\n    > f\n\n" ++
      "| h   |\n| :-- |\n|     |\n\nt\n:   x\n\n    ~~~~ c\n    z\n    ~~~~\n\n[c]: https://x.y \"t\"\n\n\nTitle\n-----\n\n" ++
      "   - - - - - - - - - - - - - - - - - - - - - - - - - - - - - - - - - - - - -\n\n<b>\n</b>\n").toList := by decide +kernel

/-! ### Where it fails -/

/-- A paragraph with `n` hard line breaks between two words. -/
def exBreaks (n : Nat) : Node :=
  .mk .paragraph ⟨1, 1, n + 1, 1⟩ (.mk (.text ['a']) ⟨1, 1, 1, 1⟩ [] ::
    ((List.range n).map fun i => .mk .lineBreak ⟨i + 1, if i = 0 then 2 else 1, i + 1, if i = 0 then 2 else 1⟩ []) ++
    [.mk (.text ['b']) ⟨n + 1, 1, n + 1, 1⟩ []])

/-- Its source: `a\`, then lines `\`, then `b`. -/
def exBreakLines : Nat → List (List Char)
  | 0 => ["ab".toList]
  | n + 1 => "a\\".toList :: List.replicate n ['\\'] ++ [['b']]

/-- **C92.** Two hard line breaks in a row are written as a line of two spaces, which ends the paragraph. -/
theorem c92_break_false : ¬ ∀ n : Nat,
    TidyLines true (formatDoc { codeCx with sourceLines := exBreakLines n } (exDoc [exBreaks n])).output := by
  intro h
  exact absurd (h 2) (by decide +kernel)

example : (formatDoc { codeCx with sourceLines := exBreakLines 2 } (exDoc [exBreaks 2])).output = "a  \n  \nb\n".toList := by
  decide +kernel
example : TidyLines true (formatDoc { codeCx with sourceLines := exBreakLines 1 } (exDoc [exBreaks 1])).output := by
  decide +kernel

/-- **C92.** Even without hard line breaks, a block that begins on a line of its own leaves the marker of its
item with spaces after it, as does an item with nothing in it. -/
theorem c92_item_false : ¬ ∀ cs : List Node, wellPlacedDoc cs = true → TidyNodes codeCx false false true cs →
    TidyLines false (formatDoc codeCx (exDoc [exList .bullet [cs]])).output := by
  intro h
  have h1 := h [exQuoted [exPar [exText "a"]]] (by decide +kernel) (by
    have h : ∀ p, NoAbbreviation codeCx p := fun p s e => by simp [extractSource, codeCx] at e
    simp only [TidyNodes, TidyNode, exPar, exQuoted, h, and_true, true_and]
    decide +kernel)
  revert h1
  decide +kernel

example : (formatDoc codeCx (exDoc [exList .bullet [[exQuoted [exPar [exText "a"]]]]])).output = " -  \n    > a\n".toList := by decide +kernel
example : (formatDoc codeCx (exDoc [exList .bullet [[]]])).output = " -  \n".toList := by decide +kernel

/-- **C92.** Code at the start of a description leaves the colon with spaces after it. -/
theorem c92_description_false : ¬ ∀ cs : List Node, wellPlacedDoc cs = true → cs ≠ [] → TidyNodes codeCx true false false cs →
    TidyLines true (formatted codeCx [] (.mk .descriptionDetails ⟨1, 1, 1, 1⟩ cs) false) := by
  intro h
  have h1 := h [.mk (.codeBlock [] "x\n".toList) ⟨1, 1, 1, 1⟩ []] (by decide +kernel) (by simp) (by
    simp only [TidyNodes, TidyNode, and_true]
    decide +kernel)
  revert h1
  decide +kernel

/-- **C92.** An empty line of code in a list item in a block quote is written as the marker of the quote with a
space after it; in a block quote alone the space is left out. -/
theorem c92_code_false : ¬ ∀ literal : List Char, (∀ l ∈ lines literal, l = [] ∨ EndsVisible l) →
    TidyLines true (formatDoc codeCx (exDoc [exQuoted [exList .bullet [[exPar [exText "a"],
      .mk (.codeBlock [] literal) ⟨1, 1, 1, 1⟩ []]]]])).output := by
  intro h
  have h1 := h "x\n\ny\n".toList (by decide +kernel)
  revert h1
  decide +kernel

example : (formatDoc codeCx (exDoc [exQuoted [.mk (.codeBlock [] "x\n\ny\n".toList) ⟨1, 1, 1, 1⟩ []]])).output =
    "> ~~~~\n> x\n>\n> y\n> ~~~~\n".toList := by decide +kernel

/-- **C92.** A heading with nothing in it, from the third level on, is written as its marks with a space
after them. -/
theorem c92_heading_false : ¬ ∀ level : Nat, 1 ≤ level → level ≤ 6 →
    TidyLines true (formatDoc { codeCx with sourceLines := [List.replicate level '#'] }
      (exDoc [.mk (.heading level) ⟨1, 1, 1, level⟩ []])).output := by
  intro h
  have h1 := h 3 (by decide) (by decide)
  revert h1
  decide +kernel

/-- **C92.** A line break in the title of a link gets the two spaces of a hard line break. -/
theorem c92_title_false : ¬ ∀ title : List Char, (∀ l ∈ splitOn '\n' title, Trimmed l) →
    TidyLines false (formatDoc codeCx (exDoc [exPar [.mk (.link "/u".toList title) ⟨1, 1, 1, 1⟩ [exText "a"]]])).output := by
  intro h
  have h1 := h "t\nu".toList (by decide +kernel)
  revert h1
  decide +kernel

end Hongdown.Props
