import Verif.Lemmas.Ranges
import Verif.Lemmas.WrapEnd
import Verif.Props.Frame

/-!
# The layout of documents: C24, C25, C26, C55, C56, C57
-/

namespace Hongdown.Props
open Model Spec

/-! ### C25: disabled regions -/

/-- **C25.** The layout of every document: the blocks before the trailing HTML blocks in
order, with the line breaks of `gapBetween`; a block is its source where the last switch
before it says so, and its own text elsewhere; definitions only before sections and
directives and at the end; after them the trailing HTML blocks; and after a disable-file
directive nothing but the rest of the source. -/
theorem c25_layout (cx : Cx) (p : Pos) (cs main tail : List Node) (hw : wellPlacedDoc cs = true)
    (ht : Trailing cs main tail) :
    Layout cx tail [] [] main (formatDoc cx (.mk .document p cs)).output :=
  document_layout hw ht

/-- The block `n` between `A` and `B` in a document. -/
theorem block_at {cx : Cx} {p : Pos} {A B : List Node} {n : Node}
    (hw : wellPlacedDoc (A ++ n :: B) = true) (hn : isTextBlock n = true)
    (hB : ∃ m ∈ n :: B, m.isPlainHtml = false ∧ m.isFootnoteDefinition = false)
    (hA : ∀ m ∈ A, m.directive ≠ some .disableFile) :
    ∃ X defs text Y, (formatDoc cx (.mk .document p (A ++ n :: B))).output =
        X ++ (defs ++ gapBetween A n ++ text ++ Y) ∧
      (if writesDefinitions A n then Definitions cx X defs else defs = []) ∧
      BlockText cx A n (nextIsBracket B) text := by
  obtain ⟨main, tail, ht⟩ := trailing_exists (A ++ n :: B)
  have hsplit : ∃ C, main = A ++ n :: C ∧ B = C ++ tail := by
    obtain ⟨m, hm, h1⟩ := hB
    rcases List.mem_cons.mp hm with rfl | hm
    · exact trailing_split ht h1
    · obtain ⟨B1, B2, rfl⟩ := List.append_of_mem hm
      have ht' : Trailing ((A ++ n :: B1) ++ m :: B2) main tail := by simpa using ht
      obtain ⟨C, h2, h3⟩ := trailing_split ht' h1
      exact ⟨B1 ++ m :: C, by rw [h2]; simp, by rw [h3]; simp⟩
  obtain ⟨C, hmain, hB'⟩ := hsplit
  have hl := document_layout (cx := cx) (p := p) hw ht
  rw [hmain] at hl
  obtain ⟨X, t', e, hl'⟩ := layout_at A hl hA
  rw [List.nil_append] at hl'
  rw [e]
  have hn2 : n.directive = none ∧ n.isFootnoteDefinition = false := by
    simpa [isTextBlock] using hn
  cases hl' with
  | hidden _ _ _ _ _ hf h' => rw [hn2.2] at hf; cases hf
  | file _ defs _ _ _ literal hd _ _ => rw [hn2.1] at hd; cases hd
  | directive _ defs t' _ _ _ literal h1 h2 h3 h4 h5 => rw [hn2.1] at h1; cases h1
  | block _ defs text t' _ _ _ h1 h2 h3 h4 =>
    exact ⟨X, defs, text, t', rfl, h2, by rw [hB']; exact h3⟩

/-- **C25.** The exact rule: where the last switch before a block turns formatting off, the
block is its source and a line break. -/
theorem c25_off (cx : Cx) (p : Pos) (A B : List Node) (n : Node)
    (hw : wellPlacedDoc (A ++ n :: B) = true) (hn : isTextBlock n = true)
    (hB : ∃ m ∈ n :: B, m.isPlainHtml = false ∧ m.isFootnoteDefinition = false)
    (hA : ∀ m ∈ A, m.directive ≠ some .disableFile) (hoff : Off A n) (source : List Char)
    (hs : extractSource cx n.pos = some source) :
    ∃ X Y, (formatDoc cx (.mk .document p (A ++ n :: B))).output =
      X ++ gapBetween A n ++ source ++ ['\n'] ++ Y := by
  obtain ⟨X, defs, text, Y, h1, _, h3⟩ := block_at (cx := cx) (p := p) hw hn hB hA
  refine ⟨X ++ defs, Y, ?_⟩
  rcases h3 with ⟨_, h3⟩ | ⟨s, _, h4, rfl⟩
  · rw [h3 hoff] at hs; cases hs
  · rw [hs, Option.some.injEq] at h4
    rw [h1, h4]
    simp

/-- **C25.** Elsewhere the block is formatted, in the same way as if it stood alone after the
noun directives. -/
theorem c25_on (cx : Cx) (p : Pos) (A B : List Node) (n : Node)
    (hw : wellPlacedDoc (A ++ n :: B) = true) (hn : isTextBlock n = true)
    (hB : ∃ m ∈ n :: B, m.isPlainHtml = false ∧ m.isFootnoteDefinition = false)
    (hA : ∀ m ∈ A, m.directive ≠ some .disableFile) (hon : ¬ Off A n) :
    ∃ X Y, (formatDoc cx (.mk .document p (A ++ n :: B))).output =
      X ++ gapBetween A n ++ formatted cx A n (nextIsBracket B) ++ Y := by
  obtain ⟨X, defs, text, Y, h1, _, h3⟩ := block_at (cx := cx) (p := p) hw hn hB hA
  refine ⟨X ++ defs, Y, ?_⟩
  rcases h3 with ⟨rfl, _⟩ | ⟨s, h4, _⟩
  · rw [h1]; simp
  · exact absurd h4 hon

/-- A directive on line `l`. -/
def exDirective (s : String) (l : Nat) : Node :=
  .mk (.htmlBlock ("<!-- hongdown-" ++ s ++ " -->\n").toList) ⟨l, 1, l, 18 + s.toList.length⟩ []

/-- A paragraph on line `l`. -/
def exLine (s : String) (l : Nat) : Node :=
  .mk .paragraph ⟨l, 1, l, s.toList.length⟩ [.mk (.text s.toList) ⟨l, 1, l, s.toList.length⟩ []]

/-- A source with a next-line directive in a disabled region. -/
def exNestCx : Cx :=
  { codeCx with
    sourceLines := ["<!-- hongdown-disable -->".toList, [], "<!-- hongdown-disable-next-line -->".toList,
      "a...b".toList, [], "c...d".toList]
    sourceEndsWithNewline := true }

/-- The blocks before the last one. -/
def exNestBefore : List Node :=
  [exDirective "disable" 1, exDirective "disable-next-line" 3, exLine "a...b" 4]

/-- **C25.** The claim of README.md is false: a next-line directive in a disabled region ends
the region. The last paragraph comes after `disable` without `enable`, and is formatted. -/
theorem c25_regions_false :
    ¬ ∀ (cx : Cx) (p : Pos) (A B : List Node) (n : Node),
      wellPlacedDoc (A ++ n :: B) = true → isTextBlock n = true → n.isPlainHtml = false →
      (∀ m ∈ A, m.directive ≠ some .disableFile) → Covered A n → ∀ source,
      extractSource cx n.pos = some source →
      source ++ ['\n'] <:+: (formatDoc cx (.mk .document p (A ++ n :: B))).output := by
  intro h
  have := h exNestCx ⟨1, 1, 6, 5⟩ exNestBefore [] (exLine "c...d" 6) (by decide +kernel)
    (by decide +kernel) (by decide +kernel) (by decide +kernel)
    (.disable [] _ _ rfl (by decide +kernel) (by decide +kernel)) "c...d".toList (by decide +kernel)
  have e : (formatDoc exNestCx (.mk .document ⟨1, 1, 6, 5⟩ (exNestBefore ++ [exLine "c...d" 6]))).output =
      ("<!-- hongdown-disable -->\n\n<!-- hongdown-disable-next-line -->\n\na...b\n\n" ++
       "c…d\n").toList := by decide +kernel
  rw [e] at this
  exact absurd this (by decide +kernel)

example : (formatDoc exNestCx (exDoc (exNestBefore ++ [exLine "c...d" 6]))).output =
    ("<!-- hongdown-disable -->\n\n<!-- hongdown-disable-next-line -->\n\na...b\n\n" ++
     "c…d\n").toList := by decide +kernel

/-- **C25 (partial).** Full statement: without the hypothesis `hs` (`c25_regions_false`). It
holds if directives do not nest: after `disable` the next switch is `enable`, and after
`disable-next-section` there is none before the next section. -/
theorem c25_regions_partial (cx : Cx) (p : Pos) (A B : List Node) (n : Node)
    (hw : wellPlacedDoc (A ++ n :: B) = true) (hn : isTextBlock n = true)
    (hB : ∃ m ∈ n :: B, m.isPlainHtml = false ∧ m.isFootnoteDefinition = false)
    (hA : ∀ m ∈ A, m.directive ≠ some .disableFile) (hc : Covered A n)
    (hs : ∀ X d Y e Z, A = X ++ d :: (Y ++ e :: Z) → isSwitch e = true →
      (d.directive = some .disable → (∀ m ∈ Y, m.directive ≠ some .enable) →
        e.directive = some .enable) ∧
      (d.directive = some .disableNextSection → ∃ m ∈ Y, startsSection m = true))
    (source : List Char) (hx : extractSource cx n.pos = some source) :
    ∃ X Y, (formatDoc cx (.mk .document p (A ++ n :: B))).output =
      X ++ gapBetween A n ++ source ++ ['\n'] ++ Y :=
  c25_off cx p A B n hw hn hB hA (off_of_covered hc hs) source hx

/-- **C25 (partial).** The other direction, if next-line directives stand right before a block:
what no directive covers is formatted. -/
theorem c25_uncovered_partial (cx : Cx) (p : Pos) (A B : List Node) (n : Node)
    (hw : wellPlacedDoc (A ++ n :: B) = true) (hn : isTextBlock n = true)
    (hB : ∃ m ∈ n :: B, m.isPlainHtml = false ∧ m.isFootnoteDefinition = false)
    (hA : ∀ m ∈ A, m.directive ≠ some .disableFile) (hc : ¬ Covered A n)
    (hs : ∀ X d e Y, A = X ++ d :: e :: Y → d.directive = some .disableNextLine →
      isTextBlock e = true) :
    ∃ X Y, (formatDoc cx (.mk .document p (A ++ n :: B))).output =
      X ++ gapBetween A n ++ formatted cx A n (nextIsBracket B) ++ Y :=
  c25_on cx p A B n hw hn hB hA (fun h => hc (covered_of_off h hs))

/-- A source with a disabled region, a disabled line and a disabled section. -/
def exRegionsCx : Cx :=
  { codeCx with
    sourceLines := ["<!-- hongdown-disable -->", "a...b", "", "c...d", "", "<!-- hongdown-enable -->",
      "e...f", "", "<!-- hongdown-disable-next-line -->", "g...h", "", "i...j", "",
      "<!-- hongdown-disable-next-section -->", "k...l", "", "## m", "", "n...o"].map String.toList
    sourceEndsWithNewline := true }

/-- Its blocks. -/
def exRegions : List Node :=
  [exDirective "disable" 1, exLine "a...b" 2, exLine "c...d" 4, exDirective "enable" 6,
   exLine "e...f" 7, exDirective "disable-next-line" 9, exLine "g...h" 10, exLine "i...j" 12,
   exDirective "disable-next-section" 14, exLine "k...l" 15,
   .mk (.heading 2) ⟨17, 1, 17, 4⟩ [exText "m"], exLine "n...o" 19]

example : (formatDoc exRegionsCx (exDoc exRegions)).output =
    ("<!-- hongdown-disable -->\n\na...b\n\nc...d\n\n<!-- hongdown-enable -->\n\ne…f\n\n" ++
     "<!-- hongdown-disable-next-line -->\n\ng...h\n\ni…j\n\n" ++
     "<!-- hongdown-disable-next-section -->\n\nk...l\n\n\nm\n-\n\nn…o\n").toList := by decide +kernel

/-! ### C26: where warnings are suppressed -/

/-- **C26.** The ranges in which warnings are suppressed are what README.md says: the lines
of the blocks which a directive covers, and those after a disable-file directive. -/
theorem c26_ranges (A B : List Node) (n : Node) (h : InOrder (A ++ n :: B))
    (hn : isTextBlock n = true) (l : Nat) (h1 : n.pos.startLine ≤ l) (h2 : l ≤ n.pos.endLine) :
    inRanges l (disabledRanges (A ++ n :: B)) = true ↔
      Covered A n ∨ ∃ d ∈ A, d.directive = some .disableFile :=
  ranges_covered h hn h1 h2

/-- **C26.** No undefined reference is reported on the lines of a covered block. -/
theorem c26_no_warning (cx : Cx) (A B : List Node) (n : Node) (h : InOrder (A ++ n :: B))
    (hn : isTextBlock n = true) (hc : Covered A n ∨ ∃ d ∈ A, d.directive = some .disableFile)
    (w : Warning) (hw : w ∈ undefinedWarnings cx (A ++ n :: B)) :
    w.line < n.pos.startLine ∨ n.pos.endLine < w.line := by
  rw [undefinedWarnings] at hw
  split at hw
  · cases hw
  · have h3 := (List.mem_filter.mp hw).2
    by_cases h1 : n.pos.startLine ≤ w.line
    · by_cases h2 : w.line ≤ n.pos.endLine
      · rw [(ranges_covered h hn h1 h2).mpr hc] at h3
        cases h3
      · omega
    · omega

/-- The blocks before the last one: `enable` ends a disabled section for the formatter. -/
def exMixedBefore : List Node :=
  [exDirective "disable-next-section" 1, exLine "a...b" 2, exDirective "enable" 4]

/-- **C26.** The claim is false: the ranges and the formatter disagree. After `enable` in a
disabled section the text is formatted, but no warning is given for it. -/
theorem c26_exact_false :
    ¬ ∀ (A B : List Node) (n : Node), InOrder (A ++ n :: B) → isTextBlock n = true →
      (∀ d ∈ A, d.directive ≠ some .disableFile) →
      ∀ l, n.pos.startLine ≤ l → l ≤ n.pos.endLine →
      (inRanges l (disabledRanges (A ++ n :: B)) = true ↔ Off A n) := by
  intro h
  have hord : InOrder (exMixedBefore ++ [exLine "c...[x]" 5]) := by
    refine ⟨by decide +kernel, ?_, by decide +kernel⟩
    intro A a B b C e _ _
    have hp : (exMixedBefore ++ [exLine "c...[x]" 5]).Pairwise
        (fun a b => a.pos.endLine < b.pos.startLine) := by decide +kernel
    rw [e] at hp
    have := (List.pairwise_append.mp hp).2.1
    exact (List.pairwise_cons.mp this).1 b (by simp)
  have h1 := (h exMixedBefore [] (exLine "c...[x]" 5) hord (by decide +kernel) (by decide +kernel) 5
    (by decide) (by decide)).mp (by decide +kernel)
  rw [off_iff] at h1
  exact absurd h1 (by decide +kernel)

/-- A context with the source of that document. -/
def exMixedCx : Cx :=
  { codeCx with
    sourceLines := ["<!-- hongdown-disable-next-section -->", "a...b", "", "<!-- hongdown-enable -->",
      "c...[x]"].map String.toList
    sourceEndsWithNewline := true }

/-- The last paragraph is formatted, and its undefined reference is not reported. -/
example : (formatDoc exMixedCx (exDoc (exMixedBefore ++ [exLine "c...[x]" 5]))).output =
      ("<!-- hongdown-disable-next-section -->\n\na...b\n\n<!-- hongdown-enable -->\n\n" ++
       "c…[x]\n").toList ∧
    (formatDoc exMixedCx (exDoc (exMixedBefore ++ [exLine "c...[x]" 5]))).warnings = [] ∧
    (formatDoc exMixedCx (exDoc [exLine "c...[x]" 5])).warnings =
      [⟨5, "undefined reference link: [x]".toList⟩] := by decide +kernel

/-- **C26 (partial).** Full statement: without `hs` and `hl` (`c26_exact_false`). The ranges and
the formatter agree if directives do not nest and next-line directives stand right before a
block. -/
theorem c26_exact_partial (A B : List Node) (n : Node) (h : InOrder (A ++ n :: B))
    (hn : isTextBlock n = true) (hA : ∀ d ∈ A, d.directive ≠ some .disableFile)
    (hs : ∀ X d Y e Z, A = X ++ d :: (Y ++ e :: Z) → isSwitch e = true →
      (d.directive = some .disable → (∀ m ∈ Y, m.directive ≠ some .enable) →
        e.directive = some .enable) ∧
      (d.directive = some .disableNextSection → ∃ m ∈ Y, startsSection m = true))
    (hl : ∀ X d e Y, A = X ++ d :: e :: Y → d.directive = some .disableNextLine →
      isTextBlock e = true)
    (l : Nat) (h1 : n.pos.startLine ≤ l) (h2 : l ≤ n.pos.endLine) :
    inRanges l (disabledRanges (A ++ n :: B)) = true ↔ Off A n := by
  rw [ranges_covered h hn h1 h2]
  constructor
  · rintro (hc | ⟨d, hd, hf⟩)
    · exact off_of_covered hc hs
    · exact absurd hf (hA d hd)
  · exact fun ho => .inl (covered_of_off ho hl)

/-! ### C24: disable-file -/

/-- **C24.** Where the first disable-file directive stands, the output ends with the directive
without the white space after it, and the lines of the source after it. -/
theorem c24_file (cx : Cx) (p : Pos) (A B : List Node) (d : Node)
    (hw : wellPlacedDoc (A ++ d :: B) = true) (hd : d.directive = some .disableFile)
    (hA : ∀ m ∈ A, m.directive ≠ some .disableFile) :
    ∃ X defs literal, d.html? = some literal ∧ Definitions cx X defs ∧
      (formatDoc cx (.mk .document p (A ++ d :: B))).output =
        X ++ defs ++ trimEnd literal ++ restOfFile cx d := by
  obtain ⟨main, tail, ht⟩ := trailing_exists (A ++ d :: B)
  obtain ⟨d1, d2, d3⟩ := directive_heading hd
  obtain ⟨C, hmain, hB'⟩ := trailing_split ht (by simp [Node.isPlainHtml, hd, d2])
  have hl := document_layout (cx := cx) (p := p) hw ht
  rw [hmain] at hl
  obtain ⟨X, t', e, hl'⟩ := layout_at A hl hA
  rw [e]
  cases hl' with
  | hidden _ _ _ _ _ hf h' => rw [d2] at hf; cases hf
  | file _ defs _ _ _ literal _ h1 h2 =>
    exact ⟨X, defs, literal, h1, by simpa using h2, by simp⟩
  | directive _ defs t' _ _ _ literal h1 h2 h3 h4 h5 => exact absurd hd h2
  | block _ defs text t' _ _ _ h1 h2 h3 h4 => simp [isTextBlock, hd] at h1

/-- A tree with a directive on the first line. -/
def exFile : List Node := [exDirective "disable-file" 1]

/-- **C24.** The claim that what follows the directive is kept byte for byte is false in two
ways. First, the line break after the directive is lost if nothing follows it. -/
theorem c24_newline_false :
    ¬ ∀ (cx : Cx) (p : Pos) (A B : List Node) (d : Node) (pre rest : List Char),
      wellPlacedDoc (A ++ d :: B) = true → d.directive = some .disableFile →
      (∀ m ∈ A, m.directive ≠ some .disableFile) → pre.count '\n' + 1 = d.pos.endLine → '\r' ∉ rest →
      '\n' :: rest <:+
        (formatDoc (withSource cx (pre ++ '\n' :: rest)) (.mk .document p (A ++ d :: B))).output := by
  intro h
  have := h codeCx ⟨1, 1, 1, 29⟩ [] [] (exDirective "disable-file" 1)
    "<!-- hongdown-disable-file -->".toList [] (by decide +kernel) (by decide +kernel) (by simp)
    (by decide +kernel) (by simp)
  have e : (formatDoc (withSource codeCx ("<!-- hongdown-disable-file -->".toList ++ ['\n']))
      (.mk .document ⟨1, 1, 1, 29⟩ [exDirective "disable-file" 1])).output =
      "<!-- hongdown-disable-file -->".toList := by decide +kernel
  rw [List.nil_append, e] at this
  exact absurd this (by decide +kernel)

/-- **C24.** Second, CRLF line endings become LF. -/
theorem c24_crlf_false :
    ¬ ∀ (cx : Cx) (p : Pos) (A B : List Node) (d : Node) (pre rest : List Char),
      wellPlacedDoc (A ++ d :: B) = true → d.directive = some .disableFile →
      (∀ m ∈ A, m.directive ≠ some .disableFile) → pre.count '\n' + 1 = d.pos.endLine → rest ≠ [] →
      rest <:+
        (formatDoc (withSource cx (pre ++ '\n' :: rest)) (.mk .document p (A ++ d :: B))).output := by
  intro h
  have := h codeCx ⟨1, 1, 2, 29⟩ [] [] (exDirective "disable-file" 1)
    "<!-- hongdown-disable-file -->\r".toList "a\r\n".toList (by decide +kernel) (by decide +kernel)
    (by simp) (by decide +kernel) (by decide +kernel)
  have e : (formatDoc (withSource codeCx
      ("<!-- hongdown-disable-file -->\r".toList ++ '\n' :: "a\r\n".toList))
      (.mk .document ⟨1, 1, 2, 29⟩ [exDirective "disable-file" 1])).output =
      "<!-- hongdown-disable-file -->\na\n".toList := by decide +kernel
  rw [List.nil_append, e] at this
  exact absurd this (by decide +kernel)

/-- **C24 (partial).** Full statement: for every source (`c24_newline_false`,
`c24_crlf_false`). If anything follows the line of the directive, and no carriage return is
in it, it is kept byte for byte, whatever it is. -/
theorem c24_verbatim_partial (cx : Cx) (p : Pos) (A B : List Node) (d : Node) (pre rest : List Char)
    (hw : wellPlacedDoc (A ++ d :: B) = true) (hd : d.directive = some .disableFile)
    (hA : ∀ m ∈ A, m.directive ≠ some .disableFile) (hp : pre.count '\n' + 1 = d.pos.endLine)
    (hr : '\r' ∉ rest) (hne : rest ≠ []) :
    ∃ X literal, d.html? = some literal ∧
      (formatDoc (withSource cx (pre ++ '\n' :: rest)) (.mk .document p (A ++ d :: B))).output =
        X ++ trimEnd literal ++ '\n' :: rest := by
  obtain ⟨X, defs, literal, h1, _, h3⟩ :=
    c24_file (withSource cx (pre ++ '\n' :: rest)) p A B d hw hd hA
  refine ⟨X ++ defs, literal, h1, ?_⟩
  rw [h3]
  congr 1
  have hdrop : (withSource cx (pre ++ '\n' :: rest)).sourceLines.drop d.pos.endLine = lines rest := by
    rw [← hp]
    exact drop_lines pre rest []
  have hl : lines rest ≠ [] := linesGo_acc [] rest (.inr hne)
  have hj := joinWith_linesGo rest [] (by simp) hr (by simp) (.inr hne)
  rw [List.reverse_nil, List.nil_append, ← lines] at hj
  have hends : (withSource cx (pre ++ '\n' :: rest)).sourceEndsWithNewline =
      decide (rest.getLast? = some '\n') := by
    simp only [withSource, getLast_append_cons pre hne]
  simp only [restOfFile, hdrop, hends]
  cases hls : lines rest with
  | nil => exact absurd hls hl
  | cons l ls =>
    rw [hls] at hj
    simp only [decide_eq_true_eq, List.cons_append]
    rw [hj]

example : (formatDoc (withSource codeCx
      "a...b\n\n<!-- hongdown-disable-file -->\n*  c   \n\n\n".toList)
      (exDoc [exLine "a...b" 1, exDirective "disable-file" 3, exLine "*  c" 4])).output =
    "a…b\n<!-- hongdown-disable-file -->\n*  c   \n\n\n".toList := by decide +kernel

/-! ### C55: empty documents -/

/-- **C55.** Empty input, and input without blocks, gives empty output and no warnings. -/
theorem c55_empty (cx : Cx) (parse : List Char → Node) (input : List Char)
    (h : input = [] ∨ ∃ p, parse input = .mk .document p []) :
    formatWithWarnings cx parse input = ([], []) := by
  rw [formatWithWarnings]
  split
  · rfl
  · rename_i hne
    obtain ⟨p, hp⟩ := h.resolve_left hne
    rw [hp]
    have : ∀ cx : Cx, undefinedWarnings cx [] = [] := by
      intro cx
      rw [undefinedWarnings]
      split <;> simp [walkRefsList]
    simp [formatDoc, ser, dispatch, serKids, serDocument, this, footnoteRefLinesList, recordLines,
      serFootnoteDefinitions, runKids, trailingStart, trailingCount, serTopLoop, flushAll,
      flushFootnotesBefore, flushReferences, flushFootnoteRefsBefore, outputTrailing]

/-- **C55.** The claim that only this gives empty output is false: an empty block quote
vanishes. -/
theorem c55_exact_false :
    ¬ ∀ (cx : Cx) (p : Pos) (cs : List Node), wellPlacedDoc cs = true →
      (formatDoc cx (.mk .document p cs)).output = [] → cs = [] := by
  intro h
  exact absurd (h codeCx ⟨1, 1, 1, 1⟩ [.mk .blockQuote ⟨1, 1, 1, 1⟩ []] (by decide +kernel)
    (by decide +kernel)) (by simp)

/-- **C55 (partial).** Full statement: for all blocks (`c55_exact_false`). Empty output comes from nothing else: not from a document with a paragraph,
heading, code block or thematic break before the trailing HTML blocks. -/
theorem c55_exact_partial (cx : Cx) (p : Pos) (A B : List Node) (v : NodeValue) (q : Pos)
    (ks : List Node) (hw : wellPlacedDoc (A ++ .mk v q ks :: B) = true)
    (hv : v = .paragraph ∨ (∃ l, v = .heading l) ∨ (∃ i c, v = .codeBlock i c) ∨ v = .thematicBreak)
    (hA : ∀ m ∈ A, m.directive ≠ some .disableFile) :
    (formatDoc cx (.mk .document p (A ++ .mk v q ks :: B))).output ≠ [] := by
  have hk : isTextBlock (.mk v q ks) = true ∧ (Node.mk v q ks).isPlainHtml = false ∧
      (Node.mk v q ks).isFootnoteDefinition = false := by
    rcases hv with rfl | ⟨_, rfl⟩ | ⟨_, _, rfl⟩ | rfl <;>
      simp [isTextBlock, Node.directive, Node.value, Node.isFootnoteDefinition, Node.isPlainHtml, Node.html?]
  obtain ⟨X, defs, text, Y, h1, _, h3⟩ := block_at (cx := cx) (p := p) hw hk.1
    ⟨_, List.mem_cons_self, hk.2⟩ hA
  have ht : text ≠ [] := by
    rcases h3 with ⟨rfl, _⟩ | ⟨s, _, _, rfl⟩
    · rw [formatted]
      rcases hv with rfl | ⟨l, rfl⟩ | ⟨i, c, rfl⟩ | rfl
      · simp only [ser, dispatch, serParagraph]
        split
        · simp [St.push]
        · rw [if_neg (by
            have : ∀ (rs : List Ref) (s : St), (addReferences s rs).listType = s.listType := by
              intro rs
              induction rs with
              | nil => exact fun _ => rfl
              | cons r rs ih =>
                intro s
                show (addReferences (addReference s r) rs).listType = _
                rw [ih, addReference]
                split <;> rfl
            rw [this]; simp)]
          simp [St.push]
      · have hh : ∀ t, headingText cx l t ≠ [] := by
          intro t
          rw [headingText]
          split
          · simp
          · split <;> simp
        simp only [ser, dispatch, serHeading, St.push]
        simp [hh]
      · simp only [ser, dispatch, serCodeBlock, St.push, codeBlockText]
        simp
      · simp only [ser, dispatch, serThematicBreak, St.push]
        simp
    · simp
  rw [h1]
  simp [ht]

example : formatWithWarnings codeCx (fun _ => exDoc []) " \n".toList = ([], []) := by decide +kernel

/-! ### C57: trailing HTML blocks -/

/-- **C57.** Without disable-file directive, a document ends with its remaining definitions,
and after them come the HTML blocks at its end, in order and as they are, after a blank
line. -/
theorem c57_trailing (cx : Cx) (p : Pos) (cs main tail : List Node) (hw : wellPlacedDoc cs = true)
    (ht : Trailing cs main tail) (hd : ∀ m ∈ main, m.directive ≠ some .disableFile) :
    ∃ X defs html, (formatDoc cx (.mk .document p cs)).output = X ++ defs ++ html ∧
      Definitions cx X defs ∧ htmlTail (X ++ defs) tail html := by
  obtain ⟨X, defs, html, h1, h2, h3⟩ := layout_end main (document_layout (cx := cx) (p := p) hw ht) hd
  exact ⟨X, defs, html, h1, by simpa using h2, by simpa using h3⟩

/-- **C57.** The other blocks keep their order. -/
theorem c57_order (cx : Cx) (p : Pos) (A B C : List Node) (a b : Node)
    (hw : wellPlacedDoc (A ++ a :: (B ++ b :: C)) = true) (ha : isTextBlock a = true)
    (hb : isTextBlock b = true)
    (hC : ∃ m ∈ b :: C, m.isPlainHtml = false ∧ m.isFootnoteDefinition = false)
    (hd : ∀ m ∈ A ++ a :: B, m.directive ≠ some .disableFile) :
    ∃ X Y Z ta tb, (formatDoc cx (.mk .document p (A ++ a :: (B ++ b :: C)))).output =
        X ++ ta ++ Y ++ tb ++ Z ∧
      BlockText cx A a (nextIsBracket (B ++ b :: C)) ta ∧
      BlockText cx (A ++ a :: B) b (nextIsBracket C) tb := by
  obtain ⟨main, tail, ht⟩ := trailing_exists (A ++ a :: (B ++ b :: C))
  have hsplit : ∃ D, main = A ++ a :: (B ++ b :: D) ∧ C = D ++ tail := by
    obtain ⟨m, hm, h1⟩ := hC
    rcases List.mem_cons.mp hm with rfl | hm
    · have ht' : Trailing ((A ++ a :: B) ++ m :: C) main tail := by simpa using ht
      obtain ⟨D, h2, h3⟩ := trailing_split ht' h1
      exact ⟨D, by rw [h2]; simp, h3⟩
    · obtain ⟨B1, B2, rfl⟩ := List.append_of_mem hm
      have ht' : Trailing ((A ++ a :: (B ++ b :: B1)) ++ m :: B2) main tail := by simpa using ht
      obtain ⟨D, h2, h3⟩ := trailing_split ht' h1
      exact ⟨B1 ++ m :: D, by rw [h2]; simp, by rw [h3]; simp⟩
  obtain ⟨D, hmain, hC'⟩ := hsplit
  have hl := document_layout (cx := cx) (p := p) hw ht
  rw [hmain] at hl
  obtain ⟨X, t', e, hl'⟩ := layout_at A hl (fun m hm => hd m (by simp [hm]))
  have ha2 : a.directive = none ∧ a.isFootnoteDefinition = false := by
    simpa [isTextBlock] using ha
  have hb2 : b.directive = none ∧ b.isFootnoteDefinition = false := by
    simpa [isTextBlock] using hb
  rw [e]
  cases hl' with
  | hidden _ _ _ _ _ hf h' => rw [ha2.2] at hf; cases hf
  | file _ defs _ _ _ literal hd _ _ => rw [ha2.1] at hd; cases hd
  | directive _ defs t' _ _ _ literal h1 h2 h3 h4 h5 => rw [ha2.1] at h1; cases h1
  | block _ defs ta t'' _ _ _ h1 h2 h3 h4 =>
    obtain ⟨Y, u, e2, hl2⟩ := layout_at B h4 (fun m hm => hd m (by simp [hm]))
    cases hl2 with
    | hidden _ _ _ _ _ hf h' => rw [hb2.2] at hf; cases hf
    | file _ defs _ _ _ literal hd _ _ => rw [hb2.1] at hd; cases hd
    | directive _ defs t' _ _ _ literal h1 h2 h3 h4 h5 => rw [hb2.1] at h1; cases h1
    | block _ defs' tb u' _ _ _ k1 k2 k3 k4 =>
      refine ⟨X ++ defs ++ gapBetween ([] ++ A) a, Y ++ defs' ++ gapBetween ([] ++ A ++ [a] ++ B) b, u', ta, tb, ?_, ?_, ?_⟩
      · rw [e2]; simp
      · rw [hC']; simpa using h3
      · rw [hC']; simpa using k3

/-- A comment at the end, a link and a footnote. -/
def exTrailing : List Node :=
  [exPar [exLink "a" "http://x"], .mk (.htmlBlock "<!-- b -->\n".toList) ⟨1, 1, 1, 1⟩ [],
   exPar [exText "c"], .mk (.htmlBlock "<!-- d -->\n".toList) ⟨1, 1, 1, 1⟩ [],
   .mk (.htmlBlock "<div>\n".toList) ⟨1, 1, 1, 1⟩ []]

example : (formatDoc codeCx (exDoc exTrailing)).output =
    "[a]\n\n<!-- b -->\n\nc\n\n[a]: http://x\n\n<!-- d -->\n<div>\n".toList := by decide +kernel

/-! ### C56: blank lines -/

/-- **C56.** Two blocks in a row: the text of the first, definitions in case the second is
a heading that starts a section, the line breaks of `gapBetween`, the text of the second. -/
theorem c56_between (cx : Cx) (p : Pos) (A C : List Node) (a b : Node)
    (hw : wellPlacedDoc (A ++ a :: b :: C) = true) (ha : isTextBlock a = true)
    (hb : isTextBlock b = true)
    (hC : ∃ m ∈ b :: C, m.isPlainHtml = false ∧ m.isFootnoteDefinition = false)
    (hd : ∀ m ∈ A, m.directive ≠ some .disableFile) :
    ∃ X Z ta tb defs, (formatDoc cx (.mk .document p (A ++ a :: b :: C))).output =
        X ++ ta ++ defs ++ gapBetween (A ++ [a]) b ++ tb ++ Z ∧
      (if writesDefinitions (A ++ [a]) b then Definitions cx (X ++ ta) defs else defs = []) ∧
      BlockText cx A a (nextIsBracket (b :: C)) ta ∧ BlockText cx (A ++ [a]) b (nextIsBracket C) tb := by
  obtain ⟨main, tail, ht⟩ := trailing_exists (A ++ a :: b :: C)
  have hsplit : ∃ D, main = A ++ a :: b :: D ∧ C = D ++ tail := by
    obtain ⟨m, hm, h1⟩ := hC
    rcases List.mem_cons.mp hm with rfl | hm
    · have ht' : Trailing ((A ++ [a]) ++ m :: C) main tail := by simpa using ht
      obtain ⟨D, h2, h3⟩ := trailing_split ht' h1
      exact ⟨D, by rw [h2]; simp, h3⟩
    · obtain ⟨B1, B2, rfl⟩ := List.append_of_mem hm
      have ht' : Trailing ((A ++ a :: b :: B1) ++ m :: B2) main tail := by simpa using ht
      obtain ⟨D, h2, h3⟩ := trailing_split ht' h1
      exact ⟨B1 ++ m :: D, by rw [h2]; simp, by rw [h3]; simp⟩
  obtain ⟨D, hmain, hC'⟩ := hsplit
  have hl := document_layout (cx := cx) (p := p) hw ht
  rw [hmain] at hl
  obtain ⟨X, t', e, hl'⟩ := layout_at A hl hd
  have ha2 : a.directive = none ∧ a.isFootnoteDefinition = false := by
    simpa [isTextBlock] using ha
  have hb2 : b.directive = none ∧ b.isFootnoteDefinition = false := by
    simpa [isTextBlock] using hb
  rw [e]
  cases hl' with
  | hidden _ _ _ _ _ hf h' => rw [ha2.2] at hf; cases hf
  | file _ defs _ _ _ literal hd _ _ => rw [ha2.1] at hd; cases hd
  | directive _ defs t' _ _ _ literal h1 h2 h3 h4 h5 => rw [ha2.1] at h1; cases h1
  | block _ defs ta t'' _ _ _ h1 h2 h3 h4 =>
    cases h4 with
    | hidden _ _ _ _ _ hf h' => rw [hb2.2] at hf; cases hf
    | file _ defs _ _ _ literal hd _ _ => rw [hb2.1] at hd; cases hd
    | directive _ defs t' _ _ _ literal h1 h2 h3 h4 h5 => rw [hb2.1] at h1; cases h1
    | block _ defs' tb u' _ _ _ k1 k2 k3 k4 =>
      refine ⟨X ++ defs ++ gapBetween ([] ++ A) a, u', ta, tb, defs', ?_, ?_, ?_, ?_⟩
      · simp
      · simpa using k2
      · rw [hC']; simpa using h3
      · rw [hC']; simpa using k3

/-- **C56.** Front matter is written without the whitespace around it, and followed by one blank line
before the next block, whatever that is: after the front matter come its own two line breaks, the
definitions of a section, which front matter does not have, and the block. -/
theorem c56_front_matter (cx : Cx) (p q : Pos) (content : List Char) (b : Node) (C : List Node)
    (hw : wellPlacedDoc (.mk (.frontMatter content) q [] :: b :: C) = true)
    (hb : b.directive = none) (hp : b.isPlainHtml = false ∧ b.isFootnoteDefinition = false) :
    ∃ u t v defs Z, content = u ++ t ++ v ∧ (∀ c ∈ u ++ v, isWs c = true) ∧
      (∀ c, t.head? = some c ∨ t.getLast? = some c → isWs c = false) ∧
      (formatDoc cx (.mk .document p (.mk (.frontMatter content) q [] :: b :: C))).output =
        t ++ ['\n', '\n'] ++ defs ++ formatted cx [.mk (.frontMatter content) q []] b (nextIsBracket C) ++ Z ∧
      (b.headingLevel ≠ some 2 → b.headingLevel ≠ some 3 → defs = []) := by
  obtain ⟨u, v, hu, hv, he⟩ := trim_append content
  obtain ⟨main, tail, ht⟩ := trailing_exists (.mk (.frontMatter content) q [] :: b :: C)
  have ht' : Trailing ([.mk (.frontMatter content) q []] ++ b :: C) main tail := ht
  obtain ⟨D, hmain, hC⟩ := trailing_split ht' hp
  have hl := document_layout (cx := cx) (p := p) hw ht
  rw [hmain] at hl
  generalize (formatDoc cx (.mk .document p (.mk (.frontMatter content) q [] :: b :: C))).output = out at hl
  have hoff : ∀ n, ¬ Off [] n := by
    intro n h
    cases h with
    | disable A d B e => simp at e
    | nextLine A d B e => simp at e
    | nextSection A d B e => simp at e
  have hoff1 : ∀ n, ¬ Off [.mk (.frontMatter content) q []] n := by
    intro n h
    have key : ∀ (A B : List Node) (d : Node), [.mk (.frontMatter content) q []] = A ++ d :: B → d.directive = none := by
      intro A B d e
      have : d ∈ [(.mk (.frontMatter content) q [] : Node)] := by rw [e]; simp
      rw [List.mem_singleton.mp this]; rfl
    cases h with
    | disable A d B e hd _ => rw [key _ _ _ e] at hd; cases hd
    | nextLine A d B e hd _ _ => rw [key _ _ _ e] at hd; cases hd
    | nextSection A d B e hd _ _ _ => rw [key _ _ _ e] at hd; cases hd
  cases hl with
  | hidden _ _ _ _ _ hf h' => cases hf
  | file _ defs _ _ _ literal hd _ _ => cases hd
  | directive _ defs t' _ _ _ literal h1 h2 h3 h4 h5 => cases h1
  | block _ defs ta t'' _ _ _ h1 h2 h3 h4 =>
    cases h4 with
    | hidden _ _ _ _ _ hf h' => rw [hp.2] at hf; cases hf
    | file _ defs _ _ _ literal hd _ _ => rw [hb] at hd; cases hd
    | directive _ defs t' _ _ _ literal h1 h2 h3 h4 h5 => rw [hb] at h1; cases h1
    | block _ defs' tb u' _ _ _ k1 k2 k3 k4 =>
      have e1 : defs = [] := h2
      have e2 : ta = trim content ++ ['\n', '\n'] := by
        rcases h3 with ⟨h3, _⟩ | ⟨_, h3, _⟩
        · rw [h3]
          simp [formatted, ser, dispatch, serFrontMatter, St.push]
        · exact absurd h3 (hoff _)
      have e3 : tb = formatted cx [.mk (.frontMatter content) q []] b (nextIsBracket C) := by
        rcases k3 with ⟨k3, _⟩ | ⟨_, k3, _⟩
        · rw [k3, hC]; rfl
        · exact absurd k3 (hoff1 _)
      refine ⟨u, trim content, v, defs', u', he, ?_, ?_, ?_, ?_⟩
      · intro c hc
        rcases List.mem_append.mp hc with hc | hc
        · exact hu c hc
        · exact hv c hc
      · rintro c (hc | hc)
        · exact trim_head content c hc
        · exact trim_getLast content c hc
      · subst e1 e2 e3
        simp [gapBetween, Node.isFrontMatter, Node.value]
      · intro n2 n3
        have : writesDefinitions ([] ++ [.mk (.frontMatter content) q []]) b = false := by
          simp [writesDefinitions, hb, n2, n3]
        rw [this] at k2
        simpa using k2

example : (formatDoc codeCx (exDoc [.mk (.frontMatter "---\ntitle: a\n---\n\n".toList) ⟨1, 1, 3, 3⟩ [],
    .mk (.heading 2) ⟨5, 1, 5, 4⟩ [exText "T"]])).output = "---\ntitle: a\n---\n\nT\n-\n".toList := by decide +kernel

/-- The text ends with exactly one line break. -/
def EndsLine (t : List Char) : Prop := ∃ u c, t = u ++ [c, '\n'] ∧ c ≠ '\n'

theorem endsLine_of {t : List Char} {c : Char} (h : t.getLast? = some c) (hc : c ≠ '\n') :
    EndsLine (t ++ ['\n']) := by
  obtain ⟨u, rfl⟩ := getLast_snoc_iff.mp h
  exact ⟨u, c, by simp, hc⟩

/-- Blocks whose text ends with exactly one line break: code blocks, thematic breaks,
paragraphs that end with a visible character, and headings with some text. -/
inductive PlainEnd (cx : Cx) : Node → Prop where
  | code (q : Pos) (ks : List Node) (info literal : List Char) : 1 ≤ cx.opts.minFenceLength →
      cx.opts.fenceChar ≠ '\n' → PlainEnd cx (.mk (.codeBlock info literal) q ks)
  | rule (q : Pos) (ks : List Node) (c : Char) : cx.opts.thematicBreakStyle.getLast? = some c →
      c ≠ '\n' → PlainEnd cx (.mk .thematicBreak q ks)
  | paragraph (q : Pos) (ks : List Node) (c : Char) : (collectInlines cx ks).1.getLast? = some c →
      isWs c = false → c ≠ '\x00' → PlainEnd cx (.mk .paragraph q ks)
  | heading (q : Pos) (ks : List Node) (l : Nat) : cx.opts.headingSentenceCase = false →
      '\n' ∉ (collectTexts cx ks).1 → 1 ≤ cx.width (collectTexts cx ks).1 →
      PlainEnd cx (.mk (.heading l) q ks)

/-- **C56 (partial).** Full statement: for every kind of block (`c56_between_false`). -/
theorem c56_ends_partial (cx : Cx) (before : List Node) (n : Node) (nb : Bool) (h : PlainEnd cx n) :
    EndsLine (formatted cx before n nb) := by
  rw [formatted]
  cases h with
  | code q ks info literal h1 h2 =>
    simp only [ser, dispatch, serCodeBlock, St.push, codeBlockText]
    simp only [← List.append_assoc]
    refine endsLine_of (c := cx.opts.fenceChar) (getLast_append_some ?_) h2
    have : 1 ≤ fenceLength cx.opts.minFenceLength cx.opts.fenceChar (codeContent cx info literal).1 :=
      Nat.le_trans h1 (Nat.le_max_left _ _)
    rw [List.getLast?_replicate, if_neg (by omega)]
  | rule q ks c h1 h2 =>
    simp only [ser, dispatch, serThematicBreak, St.push]
    simp only [← List.append_assoc]
    exact endsLine_of (getLast_append_some h1) h2
  | paragraph q ks c h1 h2 h3 =>
    simp only [ser, dispatch, serParagraph, serKids_nodes]
    split
    · rename_i src hs
      simp only [St.push, ← List.append_assoc]
      have hab : src = trim src ∧ src ≠ [] := by
        rw [abbreviationDef] at hs
        split at hs
        · cases hs
        · rename_i s _
          split at hs
          · rename_i hc
            cases hs
            refine ⟨(trim_trim _).symm, ?_⟩
            intro h0
            rw [h0] at hc
            simp at hc
          · cases hs
      cases hl : src.getLast? with
      | none => exact absurd (by simpa using hl) hab.2
      | some d =>
        refine endsLine_of (getLast_append_some hl) ?_
        rintro rfl
        have := trim_getLast src '\n' (by rw [← hab.1]; exact hl)
        revert this; decide
    · have hlt : ∀ (rs : List Ref) (s : St), (addReferences s rs).listType = s.listType := by
        intro rs
        induction rs with
        | nil => exact fun _ => rfl
        | cons r rs ih =>
          intro s
          show (addReferences (addReference s r) rs).listType = _
          rw [ih, addReference]
          split <;> rfl
      rw [if_neg (by rw [hlt]; simp)]
      simp only [St.push, ← List.append_assoc]
      refine endsLine_of (getLast_append_some (wrapText_end _ h1 h2 h3)) ?_
      rintro rfl
      revert h2; decide
  | heading q ks l h1 h2 h3 =>
    have hf : ¬ (false = true) := by simp
    simp only [ser, dispatch, serHeading, serKids_nodes, h1, St.push, headingText, if_neg hf]
    split
    · simp only [← List.append_assoc]
      refine endsLine_of (c := '=') (getLast_append_some ?_) (by decide)
      rw [List.getLast?_replicate, if_neg (by omega)]
    · split
      · simp only [← List.append_assoc]
        refine endsLine_of (c := '-') (getLast_append_some ?_) (by decide)
        rw [List.getLast?_replicate, if_neg (by omega)]
      · simp only [← List.append_assoc]
        cases hl : (collectTexts cx ks).1.getLast? with
        | some d =>
          refine endsLine_of (getLast_append_some hl) ?_
          rintro rfl
          exact h2 (List.mem_of_getLast? hl)
        | none =>
          have : (collectTexts cx ks).1 = [] := by simpa using hl
          rw [this, List.append_nil]
          exact endsLine_of (c := ' ') (getLast_append_some rfl) (by decide)

/-- **C56 (partial).** Full statement: for all blocks (`c56_between_false`). Between such a block
and the next one there is exactly one blank line, or two before a second level heading that
does not follow a heading, unless definitions stand between them. -/
theorem c56_gap_partial (cx : Cx) (p : Pos) (A C : List Node) (a b : Node)
    (hw : wellPlacedDoc (A ++ a :: b :: C) = true) (ha : isTextBlock a = true)
    (hb : isTextBlock b = true) (hC : b.isPlainHtml = false)
    (hd : ∀ m ∈ A, m.directive ≠ some .disableFile) (hoff : ¬ Off A a) (he : PlainEnd cx a)
    (hlevel : b.headingLevel ≠ some 2 ∧ b.headingLevel ≠ some 3) :
    ∃ X c Z tb, (formatDoc cx (.mk .document p (A ++ a :: b :: C))).output =
        X ++ [c, '\n', '\n'] ++ tb ++ Z ∧ c ≠ '\n' ∧
      BlockText cx (A ++ [a]) b (nextIsBracket C) tb := by
  have hb2 : b.directive = none ∧ b.isFootnoteDefinition = false := by
    simpa [isTextBlock] using hb
  obtain ⟨X, Z, ta, tb, defs, h1, h2, h3, h4⟩ := c56_between cx p A C a b hw ha hb
    ⟨b, List.mem_cons_self, hC, hb2.2⟩ hd
  rw [if_neg (by simp [writesDefinitions, hb2.1, hlevel.1, hlevel.2])] at h2
  rcases h3 with ⟨rfl, _⟩ | ⟨_, h, _⟩
  · obtain ⟨u, c, hu, hc⟩ := c56_ends_partial cx A a (nextIsBracket (b :: C)) he
    refine ⟨X ++ u, c, Z, tb, ?_, hc, h4⟩
    have hg : gapBetween (A ++ [a]) b = ['\n'] := by
      rw [gapBetween, List.getLast?_append]
      have hf : a.isFrontMatter = false := by cases he <;> rfl
      simp [hf, hlevel.1]
    rw [h1, h2, hu, hg]
    simp
  · exact absurd h hoff

/-- A list whose item ends with a heading, and a paragraph. -/
def exListGap : List Node :=
  [.mk (.list .bullet true) ⟨1, 1, 1, 1⟩ [.mk .item ⟨1, 1, 1, 1⟩ [.mk (.heading 3) ⟨1, 1, 1, 1⟩ [exText "T"]]],
   exPar [exText "x"]]

/-- **C56.** The claim is false: after a list whose last item ends with a heading there are
two blank lines. -/
theorem c56_between_false :
    ¬ ∀ (cx : Cx) (p : Pos) (cs : List Node), wellPlacedDoc cs = true →
      (∀ n ∈ cs, isTextBlock n = true ∧ n.headingLevel = none) →
      ¬ ['\n', '\n', '\n'] <:+: (formatDoc cx (.mk .document p cs)).output := by
  intro h
  have := h codeCx ⟨1, 1, 1, 1⟩ exListGap (by decide +kernel) (by decide +kernel)
  have e : (formatDoc codeCx (.mk .document ⟨1, 1, 1, 1⟩ exListGap)).output =
      " -  ### T\n\n\nx\n".toList := by decide +kernel
  rw [e] at this
  exact this (by decide +kernel)

/-- **C56.** The output may start with a blank line: after an empty block quote, and if there
are only HTML blocks. -/
theorem c56_start_false :
    ¬ ∀ (cx : Cx) (p : Pos) (cs : List Node), wellPlacedDoc cs = true →
      (formatDoc cx (.mk .document p cs)).output.head? ≠ some '\n' := by
  intro h
  exact h codeCx ⟨1, 1, 1, 1⟩ [.mk (.htmlBlock "<div>\n".toList) ⟨1, 1, 1, 1⟩ []] (by decide +kernel)
    (by decide +kernel)

example : (formatDoc codeCx (exDoc [.mk .blockQuote ⟨1, 1, 1, 1⟩ [], exPar [exText "x"]])).output =
    "\nx\n".toList := by decide +kernel

example : (formatDoc codeCx (exDoc [exPar [exText "a"], .mk (.heading 2) ⟨1, 1, 1, 1⟩ [exText "b"],
      .mk (.heading 3) ⟨1, 1, 1, 1⟩ [exText "c"], .mk .thematicBreak ⟨1, 1, 1, 1⟩ [],
      exPar [exText "d"]])).output =
    ("a\n\n\nb\n-\n\n### c\n\n   ".toList ++ defaultOptions.thematicBreakStyle ++ "\n\nd\n".toList) := by
  decide +kernel

end Hongdown.Props
