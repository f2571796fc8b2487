import Verif.Lemmas.Notes
import Verif.Props.Keep
import Verif.Props.Document
import Verif.Props.HeadingText

set_option linter.unusedSimpArgs false

/-!
# The text of footnotes (C89)
-/

namespace Hongdown.Props
open Model Spec

/-- **C89 (partial).** A footnote with a code block, a quote, a list or a table, or with several
paragraphs, is in the output of the document in this form: after its label come the blocks, each as it
would be on its own without the white space after it, with one blank line between two of them; the lines
after the first are indented as far as the label is long, and empty lines stay empty.
Full statement: a reader gets back the same blocks, with the nouns of the directives before the footnote.
`c89_code_false` and `c89_nouns_false` refute this. -/
theorem c89_blocks_partial (cx : Cx) (p : Pos) (cs : List Node) (hw : wellPlacedDoc cs = true)
    (hd : ∀ n ∈ cs, n.directive ≠ some .disableFile)
    (hn : ∀ c ∈ cs, noteFreeList c.children = true) (hnd : (cs.filterMap noteName).Nodup)
    (name : List Char) (q : Pos) (fs : List Node) (hm : .mk (.footnoteDefinition name) q fs ∈ cs)
    (hb : ByBlocks fs) (hne : [] ∉ noteBlocks cx fs) :
    unlines (hung (['[', '^'] ++ name ++ [']', ':', ' ']) (lines (joinWith ['\n', '\n'] (noteBlocks cx fs)))) <:+:
      (formatDoc cx (.mk .document p cs)).output := by
  have hnd' : (fnNames cs).Nodup := by
    have e : fnNames cs = cs.filterMap noteName := rfl
    rw [e]; exact hnd
  obtain ⟨f, h1, h2, h3, h4⟩ := formatDoc_exact (p := p) hw hd hn hnd' hm
  have hbl := hasBlocks_of hb
  rw [footnoteText_blocks cx f (h3.trans hbl), h1, h2, noteContent, if_pos hbl, joinedBlocks_true hne] at h4
  exact h4

/-- **C89.** Any other footnote is its inline content: the words in order, filled into lines. -/
theorem c89_words (cx : Cx) (p : Pos) (cs : List Node) (hwd : WidthOk cx.width) (hw : wellPlacedDoc cs = true)
    (hd : ∀ n ∈ cs, n.directive ≠ some .disableFile)
    (hn : ∀ c ∈ cs, noteFreeList c.children = true) (hnd : (cs.filterMap noteName).Nodup)
    (name : List Char) (q : Pos) (fs : List Node) (hm : .mk (.footnoteDefinition name) q fs ∈ cs)
    (hb : ¬ ByBlocks fs) (hl1 : cx.width (['[', '^'] ++ name ++ [']', ':', ' ']) ≤ cx.opts.lineWidth)
    (hl2 : byteLen name + 5 ≤ cx.opts.lineWidth) :
    ∃ ls : List (List (List Char)), ls.flatten = words (collectInlines cx fs).1 ∧ (ls = [[]] ∨ [] ∉ ls) ∧ ls ≠ [] ∧
      unlines (layout (['[', '^'] ++ name ++ [']', ':', ' ']) (List.replicate (byteLen name + 5) ' ')
          (ls.map (joinWith [' ']))) <:+: (formatDoc cx (.mk .document p cs)).output ∧
      Filled cx.width cx.opts.lineWidth (['[', '^'] ++ name ++ [']', ':', ' '])
        (List.replicate (byteLen name + 5) ' ') ls := by
  have hnd' : (fnNames cs).Nodup := by
    have e : fnNames cs = cs.filterMap noteName := rfl
    rw [e]; exact hnd
  obtain ⟨f, h1, h2, h3, h4⟩ := formatDoc_exact (p := p) hw hd hn hnd' hm
  have hbl := not_hasBlocks_of hb
  subst h1
  obtain ⟨_, ls, e1, e2, e3, e4, e5⟩ := c22_words_partial cx f {} hwd (h3.trans hbl) hl1 hl2
  refine ⟨ls, ?_, e2, e3, ?_, e5⟩
  · rw [e1, h2, noteContent, hbl, if_neg (by simp)]
    exact words_trim _
  · have : (writeFootnote cx {} f).output = footnoteText cx f := rfl
    rw [this] at e4
    rw [e4] at h4
    exact h4

/-- A document with a reference and the footnote of this name with these blocks. -/
def exNoted (name : String) (fs : List Node) : List Node :=
  [exPar [exText "a", .mk (.footnoteReference name.toList) ⟨1, 2, 1, 5⟩ []],
   .mk (.footnoteDefinition name.toList) ⟨3, 1, 9, 1⟩ fs]

/-- The blocks of a footnote. -/
def exNoteBlocks : List Node :=
  let p : Pos := ⟨1, 1, 1, 1⟩
  [exPar [exText "one"], .mk .blockQuote p [exPar [exText "two"], exPar [exText "three"]],
   .mk (.codeBlock [] "x\n\n y\n".toList) p [], exPar [exText "four"]]

example : wellPlacedDoc (exNoted "n" exNoteBlocks) = true ∧
    ∀ c ∈ exNoted "n" exNoteBlocks, noteFreeList c.children = true := by decide +kernel
example : noteBlocks codeCx exNoteBlocks =
    ["one", "> two\n>\n> three", "~~~~\nx\n\n y\n~~~~", "four"].map String.toList := by decide +kernel
example : hung "[^n]: ".toList (lines (joinWith ['\n', '\n'] (noteBlocks codeCx exNoteBlocks))) =
    ["[^n]: one", "", "      > two", "      >", "      > three", "", "      ~~~~", "      x", "", "       y", "      ~~~~",
      "", "      four"].map String.toList := by decide +kernel
example : (formatDoc codeCx (exDoc (exNoted "n" exNoteBlocks))).output =
    ("a[^n]\n\n[^n]: one\n\n      > two\n      >\n      > three\n\n      ~~~~\n      x\n\n       y\n      ~~~~\n\n" ++
      "      four\n").toList := by decide +kernel
example : ByBlocks exNoteBlocks := .inl ⟨_, .tail _ (.head _), trivial⟩
example : ByBlocks [exPar [exText "one"], exPar [exText "two"]] := .inr ⟨[], _, [], _, [], rfl, rfl, rfl⟩

/-- A footnote of one paragraph in a narrow line. -/
def exNarrowNote : Cx := exWith { defaultOptions with lineWidth := 16 }

example : (formatDoc exNarrowNote (exDoc (exNoted "n" [exPar [exText "one two three four"]]))).output =
    "a[^n]\n\n[^n]: one two\n      three four\n".toList := by decide +kernel

/-- **C89.** The general claim is false of a footnote which begins with code: the fence stands right after
the label, and the code is indented by the six columns of the label, of which a reader takes off four.
The code has two more spaces every time it is formatted. -/
theorem c89_code_false :
    ¬ ∀ (cx : Cx) (name : String) (code s : List Char),
      (formatDoc cx (exDoc (exNoted name [.mk (.codeBlock [] code) ⟨3, 7, 5, 4⟩ []]))).output =
        "a[^".toList ++ name.toList ++ "]\n\n".toList ++ s →
      (footnoteBody name.toList (lines s)).bind readFenced = some ([], lines code, []) := by
  intro h
  have := h codeCx "n" "x\n".toList "[^n]: ~~~~\n      x\n      ~~~~\n".toList (by decide +kernel)
  have e : (footnoteBody "n".toList (lines "[^n]: ~~~~\n      x\n      ~~~~\n".toList)).bind readFenced =
      some ([], ["  x".toList], []) := by decide +kernel
  rw [e] at this
  revert this
  decide +kernel

/-- With a name of three characters the code does not end at all. -/
example : (footnoteBody "abc".toList (lines ("[^abc]: ~~~~\n        x\n        ~~~~\n\n        text\n".toList))).bind readFenced =
    some ([], ["    x", "    ~~~~", "", "    text"].map String.toList, []) := by decide +kernel
example : (formatDoc codeCx (exDoc (exNoted "abc" [.mk (.codeBlock [] "x\n".toList) ⟨3, 7, 5, 4⟩ [],
      exPar [exText "text"]]))).output =
    "a[^abc]\n\n[^abc]: ~~~~\n        x\n        ~~~~\n\n        text\n".toList := by decide +kernel

/-- **C89.** The general claim is false of the nouns of directives: a heading in a footnote is written
before the directives are read, also if they come before it. Other headings keep the noun. -/
theorem c89_nouns_false :
    ¬ ∀ (cx : Cx) (noun : String) (b : Node), cx.opts.headingSentenceCase = true →
      ("The " ++ noun).toList <:+: (formatDoc cx (exDoc (exDirective ("proper-nouns: " ++ noun) 1 ::
        exNoted "n" [.mk (.heading 3) ⟨3, 1, 3, 9⟩ [exText ("The " ++ noun)], b]))).output := by
  intro h
  have := h sentenceCx "Zed" (.mk (.codeBlock [] "x\n".toList) ⟨3, 7, 5, 4⟩ []) rfl
  revert this
  decide +kernel

example : (formatDoc sentenceCx (exDoc (exDirective "proper-nouns: Zed" 1 ::
      exNoted "n" [.mk (.heading 3) ⟨3, 1, 3, 9⟩ [exText "The Zed"], .mk (.codeBlock [] "x\n".toList) ⟨3, 7, 5, 4⟩ []] ++
      [.mk (.heading 3) ⟨3, 1, 3, 9⟩ [exText "The Zed"]]))).output =
    ("<!-- hongdown-proper-nouns: Zed -->\n\na[^n]\n\n[^n]: ### The zed\n\n      ~~~~\n      x\n      ~~~~\n\n" ++
      "### The Zed\n").toList := by decide +kernel

end Hongdown.Props
