import Verif.Lemmas.LineEnds
import Verif.Props.Twice
import Verif.Props.Document
import Verif.Spec.Content

/-!
# Files with Windows line ends: C104
-/

namespace Hongdown.Props
open Model Spec

/-- **C104.** The formatter does not see whether a line of the source ends with `\n` or `\r\n`: given the same tree,
output, warnings and all else are the same. (Of several carriage returns before a line feed it sees all but one.) -/
theorem c104_same (cx : Cx) (source : List Char) (root : Node) (h : ¬ ['\r', '\r', '\n'] <:+: source) :
    formatDoc (withSource cx source) root = formatDoc (withSource cx (unixEnds source)) root := by
  have h1 : lines (unixEnds source) = lines source := linesGo_unixEnds source [] h (by simp)
  have h2 := unixEnds_getLast source
  rw [withSource, withSource, h1]
  simp only [h2]

/-- **C104.** So a file in which every line ends with `\r\n` gives the same text and the same warnings as the file in
which every line ends with `\n`, if the parser reads both alike. -/
theorem c104_windows (cx : Cx) (parse : List Char → Node) (source : List Char) (hr : '\r' ∉ source)
    (hp : parse (crlf source) = parse source) :
    formatWithWarnings cx parse (crlf source) = formatWithWarnings cx parse source := by
  have h0 : crlf source = [] ↔ source = [] := by
    cases source with
    | nil => simp [crlf]
    | cons c cs => rw [crlf]; split <;> simp
  rw [formatWithWarnings, formatWithWarnings, hp]
  by_cases h : source = []
  · rw [if_pos h, if_pos (h0.2 h)]
  · rw [if_neg h, if_neg (fun e => h (h0.1 e))]
    have := c104_same cx (crlf source) (parse source) (fun h' => crlf_single source hr (by
      obtain ⟨a, b, e⟩ := h'
      exact ⟨a, '\n' :: b, by rw [← e]; simp⟩))
    rw [unixEnds_crlf source hr] at this
    rw [this]

/-- A disabled region of a file with Windows line ends. -/
def exWindowsDoc : Node :=
  .mk .document ⟨1, 1, 4, 1⟩ [exDirective "disable" 1, .mk .paragraph ⟨3, 1, 4, 1⟩ [exText "a", .mk .softBreak ⟨3, 2, 3, 2⟩ [], exText "b"]]

example : ∃ X, (formatDoc (withSource codeCx (crlf "<!-- hongdown-disable -->\n\na\nb\n".toList)) exWindowsDoc).output = X ++ "a\nb\n".toList :=
  ⟨"<!-- hongdown-disable -->\n\n".toList, by decide +kernel⟩

/-- **C25.** "Reproduced verbatim" is false for the line ends of a disabled region: `\r\n` becomes `\n`. -/
theorem c25_windows_false : ¬ ∀ (cx : Cx) (p : Pos) (A B : List Node) (n : Node) (source raw : List Char),
    wellPlacedDoc (A ++ n :: B) = true → isTextBlock n = true →
    (∃ m ∈ n :: B, m.isPlainHtml = false ∧ m.isFootnoteDefinition = false) →
    (∀ m ∈ A, m.directive ≠ some .disableFile) → Off A n → StandsAt source n.pos raw →
    raw <:+: (formatDoc (withSource cx source) (.mk .document p (A ++ n :: B))).output := by
  intro h
  have := h codeCx ⟨1, 1, 4, 1⟩ [exDirective "disable" 1] []
    (.mk .paragraph ⟨3, 1, 4, 1⟩ [exText "a", .mk .softBreak ⟨3, 2, 3, 2⟩ [], exText "b"])
    (crlf "<!-- hongdown-disable -->\n\na\nb\n".toList) "a\r\nb".toList (by decide +kernel) (by decide +kernel)
    ⟨_, List.mem_cons_self, by decide +kernel, by decide +kernel⟩ (by decide +kernel)
    (.disable [] _ [] rfl (by decide +kernel) (by simp))
    ⟨"<!-- hongdown-disable -->\r\n\r\n".toList, "\r\n".toList, by decide +kernel, by decide +kernel⟩
  rw [show formatDoc (withSource codeCx (crlf "<!-- hongdown-disable -->\n\na\nb\n".toList)) (.mk .document ⟨1, 1, 4, 1⟩
    ([exDirective "disable" 1] ++ [.mk .paragraph ⟨3, 1, 4, 1⟩ [exText "a", .mk .softBreak ⟨3, 2, 3, 2⟩ [], exText "b"]])) =
    formatDoc (withSource codeCx (crlf "<!-- hongdown-disable -->\n\na\nb\n".toList)) exWindowsDoc from rfl] at this
  rw [show (formatDoc (withSource codeCx (crlf "<!-- hongdown-disable -->\n\na\nb\n".toList)) exWindowsDoc).output =
    "<!-- hongdown-disable -->\n\na\nb\n".toList by decide +kernel] at this
  have hr : '\r' ∈ "<!-- hongdown-disable -->\n\na\nb\n".toList := this.subset (by decide +kernel)
  exact absurd hr (by decide +kernel)

/-- **C104 (partial).** Full statement: for all documents (`c104_front_false`). For files in the fragment of C82 the
lines of the output end with `\n`, whichever line ends the source has. -/
theorem c104_unix_partial (cx : Cx) (parse : List Char → Node) (hp : AgreesTree parse) (source : List Char) (d : List TreeBlock)
    (hw : parse (crlf source) = parse source) (ho : NestedOptions cx.opts) (hcb : cx.callback = none) (hd : ReadsAs source d)
    (hf : ∀ b ∈ blocksLeaves d, BlockFits cx b) (hr : regularBlocks d = true) (hn : follows notBothLists (shownTrees d) = true) :
    '\r' ∉ (formatWithWarnings cx parse (crlf source)).1 := by
  rw [c104_windows cx parse source hd.1 hw, formatWithWarnings]
  split
  · simp
  · obtain ⟨d', h1, _⟩ := c82_read_back_partial cx source d (parse source) ho hcb hd hf hr hn (hp source d hd)
    exact h1.1

/-- **C104 (partial).** So `hongdown --check` fails for each such file with Windows line ends that has a line break,
even if it is otherwise as the formatter writes it. Full statement: for all documents. -/
theorem c104_check_partial (cx : Cx) (parse : List Char → Node) (hp : AgreesTree parse) (w : World) (args : Args) (o : Options)
    (files : List Name) (n : Name) (source : List Char) (d : List TreeBlock) (hw : w.fmt = programFormat cx parse)
    (hready : Ready w args o) (hcheck : args.check = true) (hstdin : args.stdin = false) (hdash : ['-'] ∉ args.files)
    (hsel : selectFiles w args (loadConfig w.places w.cwd args.config).1 (loadConfig w.places w.cwd args.config).2.1 false = .ok files)
    (ht : ∀ i n, files[i]? = some n → (formatOf (w.fmt o) w.disk n).length + 3 ≤ w.schedule.count i)
    (hmem : n ∈ files) (hdisk : w.disk n = some (crlf source)) (hline : '\n' ∈ source) (hsame : parse (crlf source) = parse source)
    (ho : NestedOptions o) (hd : ReadsAs source d) (hf : ∀ b ∈ blocksLeaves d, BlockFits { cx with opts := o, callback := none } b)
    (hr : regularBlocks d = true) (hn : follows notBothLists (shownTrees d) = true) :
    (runMain w args).exit = .failure ∧ (runMain w args).disk = w.disk := by
  obtain ⟨b1, _, b3⟩ := runMain_par hready (by simp [hcheck]) hstdin hdash hsel
  rw [hcheck] at b1 b3
  have hfin := c35_finishes (w.fmt o) w.faults files args.write true w.disk w.schedule (.inl rfl) ht
  obtain ⟨c1, c2, _, _⟩ := c35_check (w.fmt o) w.faults files args.write w.disk w.schedule _ rfl hfin
  refine ⟨?_, ?_⟩
  · rw [b1]
    refine c2.resolve_left fun h => ?_
    obtain ⟨input, e1, e2⟩ := c1.1 h n hmem
    rw [hdisk] at e1
    obtain rfl := Option.some.inj e1
    have := c104_unix_partial { cx with opts := o, callback := none } parse hp source d hsame ho rfl hd hf hr hn
    rw [hw, programFormat] at e2
    rw [e2] at this
    exact this (mem_crlf hline)
  · rw [b3]; exact c35_disk _ _ _ _ _ _

/-- A parser that agrees with the reader, and does not see carriage returns at the ends of lines. -/
theorem c104_parser : ∃ parse, AgreesTree parse ∧ ∀ s, '\r' ∉ s → parse (crlf s) = parse s := by
  obtain ⟨parse, hp⟩ := c82_parser
  refine ⟨fun s => parse (unixEnds s), fun s d hd => ?_, fun s hs => ?_⟩
  · show IsDocument s d (parse (unixEnds s))
    rw [unixEnds_self s hd.1]; exact hp s d hd
  · show parse (unixEnds (crlf s)) = parse (unixEnds s)
    rw [unixEnds_crlf s hs, unixEnds_self s hs]

/-- **C104.** That a file passes `--check` if it does with Unix line ends is false. -/
theorem c104_check_false : ¬ ∀ (cx : Cx) (parse : List Char → Node) (source : List Char), AgreesTree parse →
    (∀ s, '\r' ∉ s → parse (crlf s) = parse s) → '\r' ∉ source → NestedOptions cx.opts →
    (formatWithWarnings cx parse source).1 = source → (formatWithWarnings cx parse (crlf source)).1 = crlf source := by
  intro h
  obtain ⟨parse, hp, hs⟩ := c104_parser
  have h1 : ReadsAs "a\nb\n".toList [.leaf false (.paragraph ["a".toList, "b".toList])] :=
    ⟨by decide +kernel, by decide +kernel, by decide +kernel, by decide +kernel, content_textOnly (by decide +kernel), 30, by decide +kernel⟩
  have e1 := writes_tree (cx := exWith defaultOptions) hp exOptions_nested rfl h1 (by decide +kernel) (by decide +kernel) (by decide +kernel) (by decide)
  rw [show treeDoc (exWith defaultOptions) none false _ = "a\nb\n".toList by decide +kernel] at e1
  have := h (exWith defaultOptions) parse "a\nb\n".toList hp hs (by decide +kernel) exOptions_nested e1
  rw [c104_windows _ parse _ (by decide +kernel) (hs _ (by decide +kernel)), e1] at this
  exact absurd this (by decide +kernel)

/-- **C104 is false** in general: front matter, which begins the source, keeps its line ends, and what follows it gets
others. -/
theorem c104_front_false : ¬ ∀ (cx : Cx) (p q : Pos) (content source : List Char) (B : List Node),
    content <+: source →
    wellPlacedDoc (.mk (.frontMatter content) q [] :: B) = true →
    UnixText (formatDoc (withSource cx source) (.mk .document p (.mk (.frontMatter content) q [] :: B))).output := by
  intro h
  have := h codeCx ⟨1, 1, 5, 1⟩ ⟨1, 1, 3, 3⟩ (crlf "---\na: b\n---\n\n".toList) (crlf "---\na: b\n---\n\nc\n".toList) [exLine "c" 5]
    (by decide +kernel) (by decide +kernel)
  rw [show (formatDoc (withSource codeCx (crlf "---\na: b\n---\n\nc\n".toList)) (.mk .document ⟨1, 1, 5, 1⟩
    [.mk (.frontMatter (crlf "---\na: b\n---\n\n".toList)) ⟨1, 1, 3, 3⟩ [], exLine "c" 5])).output =
    "---\r\na: b\r\n---\n\nc\n".toList by decide +kernel] at this
  exact this ⟨"---".toList, "a: b\r\n---\n\nc\n".toList, by decide +kernel⟩

end Hongdown.Props
