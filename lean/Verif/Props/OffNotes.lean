import Verif.Lemmas.OffNotes
import Verif.Props.Off
import Verif.Props.Section

/-!
# C113: footnotes stay above the directive that turns formatting off
-/

namespace Hongdown.Props
open Model Spec

/-- **C113 (partial).** Full statement: for the footnotes without text, those in other blocks and those that are first
referenced after the directive too. At a directive that turns formatting off, the output is divided so that every footnote
that is first referenced on a line before the directive stands above it, wherever in the source it is defined. Other
directives may stand before it. -/
theorem c113_notes_partial (cx : Cx) (p : Pos) (A B : List Node) (r : Pos) (ks : List Node) (literal : List Char) (d : Directive)
    (keep : Char → Bool) (skip : Node → Bool)
    (hf : cx.opts.codeFormatters = []) (hcb : cx.callback = none) (hsc : cx.opts.headingSentenceCase = false)
    (hw : wellPlacedDoc (A ++ .mk (.htmlBlock literal) r ks :: B) = true)
    (hd : ∀ n ∈ A, n.directive ≠ some .disableFile)
    (hk : Counted cx.opts.punct keep) (hs : ∀ n, skip n = false → OwnText cx keep n)
    (hn : ∀ c ∈ A ++ .mk (.htmlBlock literal) r ks :: B, noteFreeList c.children = true)
    (hnd : ((A ++ .mk (.htmlBlock literal) r ks :: B).filterMap noteName).Nodup)
    (hh : parseDirective literal = some d) (ho : TurnsOff d) :
    ∃ X Y, (formatDoc cx (.mk .document p (A ++ .mk (.htmlBlock literal) r ks :: B))).output =
        X ++ offText A.isEmpty d literal ++ Y ∧
      ∀ name q fs line, .mk (.footnoteDefinition name) q fs ∈ A ++ .mk (.htmlBlock literal) r ks :: B →
        '\n' ∉ name → NoteKept fs → (docText skip (.mk .other q fs)).filter keep ≠ [] →
        FirstReference (A ++ .mk (.htmlBlock literal) r ks :: B) name line → 0 < line → line < r.startLine →
        HasNote keep name (docText skip (.mk .other q fs)) X := by
  obtain ⟨X, Y, e, hall⟩ := formatDoc_offNotes (p := p) ⟨hf, hcb⟩ hw hd hn hnd hh ho
  refine ⟨X, Y, e, fun name q fs line hm hnl hkept hne hr h0 hl => ?_⟩
  obtain ⟨f, h1, h2, h3⟩ := hall name q fs line hm hr h0 hl
  have h4 := (noteText_docText hk hs hsc q fs hkept).trans
    (keeps_of_within hk.visible (h2.trans (within_footnoteText cx f)))
  rcases footnoteText_shape cx f (h1 ▸ hnl) with h5 | ⟨h5, h6⟩
  · rw [h5] at h4
    exact absurd (List.sublist_nil.mp h4) hne
  · rw [h1] at h5 h6
    exact ⟨_, h3, h5, h6, h4⟩

/-- The footnote of `exNoteOff` is used before the directive, and defined after it. -/
example : wellPlacedDoc exNoteOff = true ∧ (exNoteOff.filterMap noteName).Nodup ∧
    (∀ c ∈ exNoteOff, noteFreeList c.children = true) ∧ FirstReference exNoteOff "n".toList 1 ∧
    TurnsOff .disable :=
  ⟨by decide +kernel, by decide +kernel, by decide +kernel, ⟨[], [], by decide +kernel, by simp⟩, .inl rfl⟩

/-- The same with a second footnote, that is used only after the directive. -/
def exTwoNotesOff : List Node :=
  exNoteOff ++ [exDirective "enable" 7,
    .mk .paragraph ⟨9, 1, 9, 5⟩ [exText "b", .mk (.footnoteReference "m".toList) ⟨9, 2, 9, 5⟩ []],
    .mk (.footnoteDefinition "m".toList) ⟨11, 1, 11, 10⟩ [exPar [exText "late"]]]

example : (formatDoc codeCx (exDoc exTwoNotesOff)).output =
    ("a[^n]\n\n[^n]: note\n\n<!-- hongdown-disable -->\n\n<!-- hongdown-enable -->\n\nb[^m]\n\n[^m]: late\n").toList := by
  decide +kernel

/-- A source with a footnote that is defined before a directive and used after it. -/
def exLateCx : Cx :=
  { codeCx with
    sourceEndsWithNewline := true
    sourceLines := ["a".toList, [], "[^n]: note".toList, [], "<!-- hongdown-disable-next-line -->".toList, [], "b[^n]".toList] }

/-- **C113.** False of the footnotes in general: one that is defined before the directive and used only after it is
not written above it. -/
theorem c113_late_false :
    ¬ ∀ (cx : Cx) (p : Pos) (A B : List Node) (r : Pos) (literal : List Char) (d : Directive) (X Y : List Char) (name : List Char)
      (q : Pos) (fs : List Node),
      wellPlacedDoc (A ++ .mk (.htmlBlock literal) r [] :: B) = true →
      (∀ n ∈ A, n.directive = none) → parseDirective literal = some d → TurnsOff d →
      .mk (.footnoteDefinition name) q fs ∈ A → q.endLine < r.startLine →
      (formatDoc cx (.mk .document p (A ++ .mk (.htmlBlock literal) r [] :: B))).output = X ++ offText A.isEmpty d literal ++ Y →
      "[^".toList ++ name ++ "]:".toList <:+: X := by
  intro H
  have := H exLateCx ⟨1, 1, 1, 1⟩
    [exPar [exText "a"], .mk (.footnoteDefinition "n".toList) ⟨3, 1, 3, 10⟩ [exPar [exText "note"]]]
    [.mk .paragraph ⟨7, 1, 7, 5⟩ [exText "b", .mk (.footnoteReference "n".toList) ⟨7, 2, 7, 5⟩ []]] ⟨5, 1, 5, 36⟩
    "<!-- hongdown-disable-next-line -->\n".toList .disableNextLine "a\n".toList
    "\nb[^n]\n\n[^n]: note\n".toList
    "n".toList ⟨3, 1, 3, 10⟩ [exPar [exText "note"]] (by decide +kernel) (by decide +kernel) (by decide +kernel)
    (.inr (.inl rfl)) (by simp) (by decide) (by decide +kernel)
  exact absurd this (by decide +kernel)

end Hongdown.Props
