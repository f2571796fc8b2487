import Verif.Lemmas.KeepNotes
import Verif.Props.Refs

/-!
# C79: formatting loses no text
-/

namespace Hongdown.Props
open Model Spec

/-- **C79.** The claim is false: a link whose text nodes spell its target is written as an autolink,
even if a code span in it is lost that way. ``[https://a.b/`c`](https://a.b/)`` becomes
`<https://a.b/>`. -/
theorem c79_autolink_false : ¬ ∀ (cx : Cx) (url code : String), cx.sourceLines = [] →
    code.toList <:+: (formatDoc cx (exDoc [exPar [.mk (.link url.toList []) ⟨1, 1, 1, 1⟩
      [exText url, .mk (.code code.toList) ⟨1, 1, 1, 1⟩ []]]])).output := by
  intro h
  have h1 := h codeCx "https://a.b/" "c" rfl
  have e : (formatDoc codeCx (exDoc [exPar [.mk (.link "https://a.b/".toList []) ⟨1, 1, 1, 1⟩
      [exText "https://a.b/", .mk (.code "c".toList) ⟨1, 1, 1, 1⟩ []]]])).output = "<https://a.b/>\n".toList := by
    decide +kernel
  rw [e] at h1
  revert h1
  decide +kernel

/-- **C79.** The claim is false for footnotes, too: one with a paragraph and an HTML block counts as
one without blocks, and of these only inline content is written. -/
theorem c79_footnote_false : ¬ ∀ (cx : Cx) (name html : String), cx.sourceLines = [] →
    html.toList <:+: (formatDoc cx (exDoc [exPar [exText "x", .mk (.footnoteReference name.toList) ⟨1, 2, 1, 5⟩ []],
      .mk (.footnoteDefinition name.toList) ⟨3, 1, 5, 15⟩ [exPar [exText "y"],
        .mk (.htmlBlock html.toList) ⟨5, 5, 5, 15⟩ []]])).output := by
  intro h
  have h1 := h codeCx "a" "<div>z</div>\n" rfl
  have e : (formatDoc codeCx (exDoc [exPar [exText "x", .mk (.footnoteReference "a".toList) ⟨1, 2, 1, 5⟩ []],
      .mk (.footnoteDefinition "a".toList) ⟨3, 1, 5, 15⟩ [exPar [exText "y"],
        .mk (.htmlBlock "<div>z</div>\n".toList) ⟨5, 5, 5, 15⟩ []]])).output = "x[^a]\n\n[^a]: y\n".toList := by
    decide +kernel
  rw [e] at h1
  revert h1
  decide +kernel

/-- **C62.** A heading or a thematic break does not make a footnote one with blocks, either: of a
heading after the text only the words are left, glued to the last word of the text, and no character
that could mark a heading. -/
theorem c62_heading_false : ¬ ∀ (cx : Cx) (name text title : String) (level : Nat),
    ['#'] <:+: (formatDoc cx (exDoc [exPar [exText "x", .mk (.footnoteReference name.toList) ⟨1, 2, 1, 5⟩ []],
      .mk (.footnoteDefinition name.toList) ⟨3, 1, 5, 15⟩ [exPar [exText text],
        .mk (.heading (level + 3)) ⟨5, 5, 5, 15⟩ [exText title]]])).output := by
  intro h
  have h1 := h codeCx "a" "one" "two" 0
  have e : (formatDoc codeCx (exDoc [exPar [exText "x", .mk (.footnoteReference "a".toList) ⟨1, 2, 1, 5⟩ []],
      .mk (.footnoteDefinition "a".toList) ⟨3, 1, 5, 15⟩ [exPar [exText "one"],
        .mk (.heading (0 + 3)) ⟨5, 5, 5, 15⟩ [exText "two"]]])).output = "x[^a]\n\n[^a]: onetwo\n".toList := by
    decide +kernel
  rw [e] at h1
  revert h1
  decide +kernel

/-- **C62.** A thematic break between the text and nothing else is not written at all. -/
theorem c62_break_false : ¬ ∀ (cx : Cx) (name text : String), cx.opts.thematicBreakStyle ≠ [] →
    cx.opts.thematicBreakStyle <:+: (formatDoc cx (exDoc [
      exPar [exText "x", .mk (.footnoteReference name.toList) ⟨1, 2, 1, 5⟩ []],
      .mk (.footnoteDefinition name.toList) ⟨3, 1, 5, 15⟩ [exPar [exText text],
        .mk .thematicBreak ⟨5, 5, 5, 15⟩ []]])).output := by
  intro h
  have h1 := h codeCx "a" "one" (by decide)
  have e : (formatDoc codeCx (exDoc [exPar [exText "x", .mk (.footnoteReference "a".toList) ⟨1, 2, 1, 5⟩ []],
      .mk (.footnoteDefinition "a".toList) ⟨3, 1, 5, 15⟩ [exPar [exText "one"],
        .mk .thematicBreak ⟨5, 5, 5, 15⟩ []]])).output = "x[^a]\n\n[^a]: one\n".toList := by
    decide +kernel
  rw [e] at h1
  revert h1
  decide +kernel

/-- **C79.** Laying out blocks loses nothing: the visible characters of all paragraphs, headings,
table cells, code blocks, HTML blocks and front matter, at any depth in lists, quotes and
definitions, are in the output in order. `skip` stands for the paragraphs that are abbreviation
definitions; formatting is not turned off, no code formatter runs and headings keep their case. -/
theorem c79_blocks (cx : Cx) (p : Pos) (cs : List Node) (skip : Node → Bool)
    (hf : cx.opts.codeFormatters = []) (hcb : cx.callback = none)
    (hsc : cx.opts.headingSentenceCase = false) (hw : wellPlacedDoc cs = true)
    (hd : ∀ n ∈ cs, n.directive ≠ some .disable ∧ n.directive ≠ some .disableFile ∧
      n.directive ≠ some .disableNextLine ∧ n.directive ≠ some .disableNextSection)
    (hs : ∀ n, skip n = false → OwnText cx (fun _ => true) n) :
    (visible (blockText
      (fun p cs => if skip (.mk .paragraph p cs) then [] else (collectInlines cx cs).1)
      (fun cs => (collectTexts cx cs).1) (fun cs => (collectInlines cx cs).1)
      (.mk .document p cs))).Sublist (visible (formatDoc cx (.mk .document p cs)).output) := by
  have h := formatDoc_writes ⟨hf, hcb⟩ (p := p) hw (fun n hn d hdn => by
    obtain ⟨h1, h2, h3, h4⟩ := hd n hn
    cases d <;> first | rfl | exact absurd hdn (by assumption))
  refine List.Sublist.trans ?_ h
  refine keeps_blockText (keep := fun c => !(isWs c || c = '\x00')) ?_ ?_ (fun _ => .refl _) _
  · intro p cs
    split
    · exact .nil _
    · rename_i h
      rw [parText, abbreviationDef_of (hs _ (by simpa using h))]
      exact .refl _
  · intro cs
    rw [headText, hsc]
    exact .refl _

/-- **C79.** The text nodes and code spans of a document are in the output, in order, as far as
characters count that punctuation conversion leaves alone. Not counted are code spans in links, of
which the theorem above loses one, text with character references, links in reference style and code
spans whose source is something else (all these are taken from the source), footnotes (see below)
and, as before, abbreviation definitions. (Missing: headings in sentence case and documents with
parts that are not formatted.) -/
theorem c79_text_partial (cx : Cx) (p : Pos) (cs : List Node) (keep : Char → Bool) (skip : Node → Bool)
    (hf : cx.opts.codeFormatters = []) (hcb : cx.callback = none)
    (hsc : cx.opts.headingSentenceCase = false) (hw : wellPlacedDoc cs = true)
    (hd : ∀ n ∈ cs, n.directive ≠ some .disable ∧ n.directive ≠ some .disableFile ∧
      n.directive ≠ some .disableNextLine ∧ n.directive ≠ some .disableNextSection)
    (hk : Counted cx.opts.punct keep) (hs : ∀ n, skip n = false → OwnText cx keep n) :
    ((docText skip (.mk .document p cs)).filter keep).Sublist
      ((formatDoc cx (.mk .document p cs)).output.filter keep) := by
  have h := formatDoc_writes ⟨hf, hcb⟩ (p := p) hw (fun n hn d hdn => by
    obtain ⟨h1, h2, h3, h4⟩ := hd n hn
    cases d <;> first | rfl | exact absurd hdn (by assumption))
  exact (docText_keeps hk hs hsc _).trans (keeps_of_within hk.visible h)

/-- A document with text in a list, a quote, a table, a heading and a code block. -/
def exKeep : List Node :=
  let p : Pos := ⟨1, 1, 1, 1⟩
  let cell s : Node := .mk .tableCell p [exText s]
  [.mk (.heading 1) p [exText "Ti&tle"],
   exPar [exText "one -- two", .mk .softBreak p [], .mk (.code "co`de".toList) p [],
     .mk (.link "https://a.b/".toList []) p [exText "link", .mk (.code "c".toList) p []]],
   .mk .blockQuote p [.mk (.list .bullet true) p [.mk .item p [exPar [.mk .emph p [exText "deep"]]]]],
   .mk (.table [.none]) p [.mk .tableRow p [cell "h|d"], .mk .tableRow p [cell "d"]],
   .mk (.codeBlock "x".toList "let y\n".toList) p []]

/-- No node of the example has anything in the source, as it is empty. -/
theorem exKeep_own (n : Node) (keep : Char → Bool) : OwnText codeCx keep n := by
  have h : ∀ p, extractSource codeCx p = none := by
    intro p
    rw [extractSource]
    simp [codeCx]
  have h' : ∀ p, referenceStyleInfo codeCx p = none := by
    intro p
    rw [referenceStyleInfo, h]
    rfl
  unfold OwnText
  split <;> simp [h, h']

/-- Letters are left alone by the default options. -/
theorem exKeep_counted : Counted defaultOptions.punct Char.isAlpha where
  visible := fun c hc => by
    refine ⟨?_, fun e => by subst e; revert hc; decide⟩
    have hlt : c.toNat < 128 := by
      simp only [Char.isAlpha, Char.isUpper, Char.isLower, Bool.or_eq_true, Bool.and_eq_true,
        decide_eq_true_eq, UInt32.le_iff_toNat_le] at hc
      have h1 : c.val.toNat = c.toNat := rfl
      have h2 : 'Z'.val.toNat = 90 := rfl
      have h3 : 'z'.val.toNat = 122 := rfl
      omega
    have := (show ∀ n : Fin 128, (Char.ofNat n).isAlpha = true → isWs (Char.ofNat n) = false by decide)
      ⟨c.toNat, hlt⟩
    simp only [Char.ofNat_toNat] at this
    exact this hc
  em := by decide
  en := by decide
  dot := by decide
  double := by decide
  single := by decide
  apostrophe := by decide

example : "Titleonetwocodelinkdeephddlety".toList.Sublist
    ((formatDoc codeCx (exDoc exKeep)).output.filter Char.isAlpha) := by
  have := c79_text_partial codeCx ⟨1, 1, 1, 1⟩ exKeep Char.isAlpha (fun _ => false) rfl rfl rfl
    (by decide +kernel) (by decide +kernel) exKeep_counted (fun n _ => exKeep_own n _)
  have e : (docText (fun _ => false) (.mk .document ⟨1, 1, 1, 1⟩ exKeep)).filter Char.isAlpha =
      "Titleonetwocodelinkdeephddlety".toList := by decide +kernel
  rwa [e] at this

/-! ### Footnotes -/

/-- **C79, C21.** The text of footnotes is kept, too, and in its place: the definition of the
footnote is somewhere in the output, with lines that are empty or indented as far as the name is
long, and the text of the footnote is in it. The footnotes have different names and are at the top
of the document, and their content is one of which nothing is dropped (see `c79_footnote_false`). -/
theorem c79_footnotes (cx : Cx) (p : Pos) (cs : List Node) (keep : Char → Bool) (skip : Node → Bool)
    (hf : cx.opts.codeFormatters = []) (hcb : cx.callback = none)
    (hsc : cx.opts.headingSentenceCase = false) (hw : wellPlacedDoc cs = true)
    (hd : ∀ n ∈ cs, n.directive ≠ some .disable ∧ n.directive ≠ some .disableFile ∧
      n.directive ≠ some .disableNextLine ∧ n.directive ≠ some .disableNextSection)
    (hk : Counted cx.opts.punct keep) (hs : ∀ n, skip n = false → OwnText cx keep n)
    (hn : ∀ c ∈ cs, noteFreeList c.children = true) (hnd : (cs.filterMap noteName).Nodup)
    (name : List Char) (q : Pos) (fs : List Node) (hm : .mk (.footnoteDefinition name) q fs ∈ cs)
    (hnl : '\n' ∉ name) (hkept : NoteKept fs)
    (hne : (docText skip (.mk .other q fs)).filter keep ≠ []) :
    ∃ s, s <:+: (formatDoc cx (.mk .document p cs)).output ∧ ['[', '^'] ++ name ++ [']', ':', ' '] <+: s ∧
      (∀ l ∈ (splitOn '\n' s).tail, l = [] ∨
        List.replicate (byteLen (['[', '^'] ++ name ++ [']', ':', ' '])) ' ' <+: l) ∧
      ((docText skip (.mk .other q fs)).filter keep).Sublist (s.filter keep) := by
  have hnd' : (fnNames cs).Nodup := by
    have e : fnNames cs = cs.filterMap noteName := rfl
    rw [e]; exact hnd
  obtain ⟨f, h1, h2, h3⟩ := formatDoc_note ⟨hf, hcb⟩ (p := p) hw (fun n hn d hdn => by
    obtain ⟨h1, h2, h3, h4⟩ := hd n hn
    cases d <;> first | rfl | exact absurd hdn (by assumption)) hn hnd' hm
  have h4 := (noteText_docText hk hs hsc q fs hkept).trans
    (keeps_of_within hk.visible (h2.trans (within_footnoteText cx f)))
  rcases footnoteText_shape cx f (h1 ▸ hnl) with h5 | ⟨h5, h6⟩
  · rw [h5] at h4
    exact absurd (List.sublist_nil.mp h4) hne
  · rw [h1] at h5 h6
    exact ⟨_, h3, h5, h6, h4⟩

/-- A document with two footnotes, one of which has a list. -/
def exNotes : List Node :=
  let p : Pos := ⟨1, 1, 1, 1⟩
  let ref s q : Node := .mk (.footnoteReference s) q []
  [exPar [exText "a", ref "n".toList ⟨1, 2, 1, 5⟩, ref "m".toList ⟨1, 6, 1, 9⟩],
   .mk (.heading 2) ⟨2, 1, 2, 4⟩ [exText "T"],
   .mk (.footnoteDefinition "n".toList) ⟨4, 1, 4, 1⟩ [exPar [exText "one", .mk .softBreak p [], exText "two"]],
   .mk (.footnoteDefinition "m".toList) ⟨5, 1, 9, 1⟩ [exPar [exText "three"],
     .mk (.list .bullet true) p [.mk .item p [exPar [exText "four"]]]]]

example : wellPlacedDoc exNotes = true ∧ (exNotes.filterMap noteName).Nodup ∧
    ∀ c ∈ exNotes, noteFreeList c.children = true := by decide +kernel
example : (formatDoc codeCx (exDoc exNotes)).output =
    "a[^n][^m]\n\n[^n]: one two\n[^m]: three\n\n       -  four\n\n\nT\n-\n".toList := by decide +kernel

example : ∃ s, s <:+: (formatDoc codeCx (exDoc exNotes)).output ∧ "[^m]: ".toList <+: s ∧
    "threefour".toList.Sublist (s.filter Char.isAlpha) := by
  have e : (docText (fun _ => false) (.mk .other ⟨5, 1, 9, 1⟩ [exPar [exText "three"],
      .mk (.list .bullet true) ⟨1, 1, 1, 1⟩ [.mk .item ⟨1, 1, 1, 1⟩ [exPar [exText "four"]]]])).filter Char.isAlpha =
        "threefour".toList := by decide +kernel
  obtain ⟨s, h1, h2, _, h3⟩ := c79_footnotes codeCx ⟨1, 1, 1, 1⟩ exNotes Char.isAlpha (fun _ => false) rfl rfl rfl
    (by decide +kernel) (by decide +kernel) exKeep_counted (fun n _ => exKeep_own n _)
    (by decide +kernel) (by decide +kernel) "m".toList ⟨5, 1, 9, 1⟩ [exPar [exText "three"],
      .mk (.list .bullet true) ⟨1, 1, 1, 1⟩ [.mk .item ⟨1, 1, 1, 1⟩ [exPar [exText "four"]]]] (by simp [exNotes])
    (by decide) (.inl ⟨_, by simp; exact .inr rfl, trivial⟩) (by rw [e]; decide)
  exact ⟨s, h1, h2, e ▸ h3⟩

end Hongdown.Props
