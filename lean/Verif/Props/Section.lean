import Verif.Props.Keep
import Verif.Lemmas.Section

/-!
# C87: in which section a footnote stands
-/

namespace Hongdown.Props
open Model Spec

/-- **C87 (partial).** Full statement: for every document, a footnote that others refer to and one without
text included (`c87_nested_false`, `c87_empty_false`). At every heading of level 2 or 3 the output is divided so that the footnotes first referenced
on a line before the heading stand before it, and those first referenced on its line or later stand
after it. A footnote referenced only further down is thus moved out of the section its definition was
written in, and a definition collected at the end of the source is brought to the section that uses it.
The heading itself stands between the two parts, in the text it has on its own. -/
theorem c87_section_partial (cx : Cx) (p : Pos) (A B : List Node) (h : Node) (keep : Char → Bool) (skip : Node → Bool)
    (hf : cx.opts.codeFormatters = []) (hcb : cx.callback = none)
    (hsc : cx.opts.headingSentenceCase = false) (hw : wellPlacedDoc (A ++ h :: B) = true)
    (hd : ∀ n ∈ A ++ h :: B, n.directive = none)
    (hk : Counted cx.opts.punct keep) (hs : ∀ n, skip n = false → OwnText cx keep n)
    (hn : ∀ c ∈ A ++ h :: B, noteFreeList c.children = true)
    (hnd : ((A ++ h :: B).filterMap noteName).Nodup)
    (hh : h.headingLevel = some 2 ∨ h.headingLevel = some 3) (hA : A ≠ [])
    (hl : ∀ n ∈ A, n.isFootnoteDefinition = false → n.pos.startLine ≤ h.pos.startLine) :
    ∃ X Y, (formatDoc cx (.mk .document p (A ++ h :: B))).output =
        X ++ gapBetween A h ++ formatted cx A h (nextIsBracket B) ++ Y ∧
      ∀ name q fs line, .mk (.footnoteDefinition name) q fs ∈ A ++ h :: B → '\n' ∉ name → NoteKept fs →
        (docText skip (.mk .other q fs)).filter keep ≠ [] → FirstReference (A ++ h :: B) name line →
        (0 < line → line < h.pos.startLine → HasNote keep name (docText skip (.mk .other q fs)) X) ∧
        (h.pos.startLine ≤ line → HasNote keep name (docText skip (.mk .other q fs)) Y) := by
  obtain ⟨X, Y, e, hall⟩ := formatDoc_section (p := p) ⟨hf, hcb⟩ hw hd hn hnd hh hA hl
  refine ⟨X, Y, e, fun name q fs line hm hnl hkept hne hr => ?_⟩
  have key : ∀ Z, (∃ f : Footnote, f.name = name ∧ VisIn (noteText cx fs) f.content ∧ footnoteText cx f <:+: Z) →
      HasNote keep name (docText skip (.mk .other q fs)) Z := by
    rintro Z ⟨f, h1, h2, h3⟩
    have h4 := (noteText_docText hk hs hsc q fs hkept).trans
      (keeps_of_within hk.visible (h2.trans (within_footnoteText cx f)))
    rcases footnoteText_shape cx f (h1 ▸ hnl) with h5 | ⟨h5, h6⟩
    · rw [h5] at h4
      exact absurd (List.sublist_nil.mp h4) hne
    · rw [h1] at h5 h6
      exact ⟨_, h3, h5, h6, h4⟩
  obtain ⟨h1, h2⟩ := hall name q fs line hm hr
  exact ⟨fun h0 hl => key X (h1 h0 hl), fun hl => key Y (h2 hl)⟩

/-- A document of two sections, whose footnotes are defined in the wrong ones. -/
def exSections : List Node :=
  let ref s q : Node := .mk (.footnoteReference s) q []
  [.mk .paragraph ⟨1, 1, 1, 5⟩ [.mk .emph ⟨1, 1, 1, 5⟩ [exText "a", ref "n".toList ⟨1, 2, 1, 5⟩]],
   .mk (.footnoteDefinition "m".toList) ⟨3, 1, 3, 11⟩ [exPar [exText "late"]],
   .mk (.heading 2) ⟨5, 1, 5, 4⟩ [exText "T"],
   .mk .paragraph ⟨7, 1, 7, 9⟩ [exText "b", ref "m".toList ⟨7, 2, 7, 5⟩, ref "n".toList ⟨7, 6, 7, 9⟩],
   .mk (.footnoteDefinition "n".toList) ⟨9, 1, 9, 12⟩ [exPar [exText "early"]]]

example : wellPlacedDoc exSections = true ∧ (exSections.filterMap noteName).Nodup ∧
    (∀ c ∈ exSections, noteFreeList c.children = true) ∧ (∀ n ∈ exSections, n.directive = none) ∧
    FirstReference exSections "n".toList 1 ∧ FirstReference exSections "m".toList 7 :=
  ⟨by decide +kernel, by decide +kernel, by decide +kernel, by decide +kernel,
    ⟨[], [("m".toList, 7), ("n".toList, 7)], by decide +kernel, by simp⟩,
    ⟨[("n".toList, 1)], [("n".toList, 7)], by decide +kernel, by decide +kernel⟩⟩
example : (formatDoc codeCx (exDoc exSections)).output =
    "*a[^n]*\n\n[^n]: early\n\n\nT\n-\n\nb[^m][^n]\n\n[^m]: late\n".toList := by decide +kernel

/-- A footnote that only another footnote refers to, with the definitions on the lines `l` and `m`. The
heading is on line `t`. -/
def exInNote (t l m : Nat) : List Node :=
  let ref s q : Node := .mk (.footnoteReference s) q []
  [.mk .paragraph ⟨1, 1, 1, 5⟩ [exText "a", ref "n".toList ⟨1, 2, 1, 5⟩],
   .mk (.heading 2) ⟨t, 1, t + 1, 1⟩ [exText "T"],
   .mk .paragraph ⟨t + 3, 1, t + 3, 1⟩ [exText "b"],
   .mk (.footnoteDefinition "n".toList) ⟨l, 1, l, 15⟩
     [.mk .paragraph ⟨l, 7, l, 15⟩ [exText "early", ref "m".toList ⟨l, 12, l, 15⟩]],
   .mk (.footnoteDefinition "m".toList) ⟨m, 1, m, 10⟩ [.mk .paragraph ⟨m, 7, m, 10⟩ [exText "late"]]]

/-- **C87.** False: a footnote that only the definition of another footnote refers to stands in the same section
as that one. What counts is the line of the definition in the source, not where it is moved to. -/
theorem c87_nested_false :
    ¬ ∀ (cx : Cx) (p : Pos) (A B : List Node) (h : Node) (X Y name name' : List Char) (q q' : Pos)
      (fs fs' : List Node),
      cx.opts.codeFormatters = [] → cx.callback = none → wellPlacedDoc (A ++ h :: B) = true →
      (∀ n ∈ A ++ h :: B, n.directive = none) → (∀ c ∈ A ++ h :: B, noteFreeList c.children = true) →
      ((A ++ h :: B).filterMap noteName).Nodup → (h.headingLevel = some 2 ∨ h.headingLevel = some 3) →
      (formatDoc cx (.mk .document p (A ++ h :: B))).output =
        X ++ gapBetween A h ++ formatted cx A h (nextIsBracket B) ++ Y →
      .mk (.footnoteDefinition name) q fs ∈ A ++ h :: B → .mk (.footnoteDefinition name') q' fs' ∈ A ++ h :: B →
      (∃ l ∈ (preorderList fs).filterMap noteRef, l.1 = name' ∧
        ∀ e ∈ (preorderList (A ++ h :: B)).filterMap noteRef, e.1 = name' → e = l) →
      ['[', '^'] ++ name ++ [']', ':', ' '] <:+: X → ['[', '^'] ++ name' ++ [']', ':', ' '] <:+: X := by
  intro H
  have := H codeCx ⟨1, 1, 1, 1⟩ ((exInNote 3 8 10).take 1) ((exInNote 3 8 10).drop 2)
    (.mk (.heading 2) ⟨3, 1, 4, 1⟩ [exText "T"])
    "a[^n]\n\n[^n]: early[^m]\n".toList "\nb\n\n[^m]: late\n".toList "n".toList "m".toList
    ⟨8, 1, 8, 15⟩ ⟨10, 1, 10, 10⟩ _ _ rfl rfl (by decide +kernel) (by decide +kernel) (by decide +kernel)
    (by decide +kernel) (.inl rfl) (by decide +kernel) (List.mem_append_right _ (.tail _ (.tail _ (.head _))))
    (List.mem_append_right _ (.tail _ (.tail _ (.tail _ (.head _)))))
    ⟨("m".toList, 8), by decide +kernel, rfl, by decide +kernel⟩ ⟨"a[^n]\n\n".toList, "early[^m]\n".toList, by decide +kernel⟩
  have h2 : ¬ (['[', '^'] ++ "m".toList ++ [']', ':', ' '] <:+: "a[^n]\n\n[^n]: early[^m]\n".toList) := by
    decide +kernel
  exact h2 this

/-- The definitions of the output above are on the lines 3 and 11, so that formatting it once more moves
the second footnote. -/
example : (formatDoc codeCx (exDoc (exInNote 3 8 10))).output =
      "a[^n]\n\n[^n]: early[^m]\n\n\nT\n-\n\nb\n\n[^m]: late\n".toList ∧
    (formatDoc codeCx (exDoc (exInNote 6 3 11))).output =
      "a[^n]\n\n[^n]: early[^m]\n[^m]: late\n\n\nT\n-\n\nb\n".toList := by decide +kernel

/-- A footnote that consists of an empty block quote. -/
def exVanishes : List Node :=
  [.mk .paragraph ⟨1, 1, 1, 5⟩ [exText "a", .mk (.footnoteReference "n".toList) ⟨1, 2, 1, 5⟩ []],
   .mk (.footnoteDefinition "n".toList) ⟨3, 1, 3, 7⟩ [.mk .blockQuote ⟨3, 7, 3, 7⟩ []]]

/-- **C87.** False: the label of every footnote of the document is in the output. A definition whose blocks have no
text vanishes, and its references are left without one. -/
theorem c87_empty_false :
    ¬ ∀ (cx : Cx) (p : Pos) (cs : List Node) (name : List Char) (q : Pos) (fs : List Node),
      wellPlacedDoc cs = true → (∀ n ∈ cs, n.directive = none) → (∀ c ∈ cs, noteFreeList c.children = true) →
      .mk (.footnoteDefinition name) q fs ∈ cs →
      ['[', '^'] ++ name ++ [']', ':'] <:+: (formatDoc cx (.mk .document p cs)).output := by
  intro H
  have := H codeCx ⟨1, 1, 1, 1⟩ exVanishes "n".toList ⟨3, 1, 3, 7⟩ [.mk .blockQuote ⟨3, 7, 3, 7⟩ []]
    (by decide +kernel) (by decide +kernel) (by decide +kernel) (.tail _ (.head _))
  exact absurd this (by decide +kernel)

/-- With no blocks at all it is kept. -/
example : (formatDoc codeCx (exDoc exVanishes)).output = "a[^n]\n\n".toList ∧
    (formatDoc codeCx (exDoc (exVanishes.take 1 ++ [.mk (.footnoteDefinition "n".toList) ⟨3, 1, 3, 5⟩ []]))).output =
      "a[^n]\n\n[^n]: \n".toList := by decide +kernel

end Hongdown.Props
