import Verif.Lemmas.HeadingText
import Verif.Props.Heading
import Verif.Props.Lists

/-!
# Headings: C46, C47, C77
-/

namespace Hongdown.Props
open Model Spec

/-! ### C46 -/

/-- C46: a heading is written in one of the two forms; the form depends on the level and on the
options only, the text does not depend on the level, and the underline is as long as the text
is wide. -/
theorem c46_form (cx : Cx) (p : Pos) (cs : List Node) (nb : Bool) (st : St) : ∃ text, ∀ level,
    ∃ out, (ser cx (.mk (.heading level) p cs) nb st).output = st.output ++ out ∧
      ((level = 1 → cx.opts.setextH1 = true → ∃ u, out = text ++ '\n' :: u ++ ['\n'] ∧ u.length = cx.width text ∧ ∀ c ∈ u, c = '=') ∧
       (level = 2 → cx.opts.setextH2 = true → ∃ u, out = text ++ '\n' :: u ++ ['\n'] ∧ u.length = cx.width text ∧ ∀ c ∈ u, c = '-') ∧
       ((level = 1 → cx.opts.setextH1 = false) → (level = 2 → cx.opts.setextH2 = false) →
         ∃ u, out = u ++ ' ' :: text ++ ['\n'] ∧ u.length = level ∧ ∀ c ∈ u, c = '#')) := by
  refine ⟨headingShown cx cs st, fun level => ⟨_, ser_heading_output cx level p cs nb st, ?_, ?_, ?_⟩⟩
  · rintro rfl h
    rw [headingText, if_pos ⟨rfl, h⟩]
    exact ⟨List.replicate (cx.width (headingShown cx cs st)) '=', by simp, by simp, fun c hc => List.eq_of_mem_replicate hc⟩
  · rintro rfl h
    rw [headingText, if_neg (by simp), if_pos ⟨rfl, h⟩]
    exact ⟨List.replicate (cx.width (headingShown cx cs st)) '-', by simp, by simp, fun c hc => List.eq_of_mem_replicate hc⟩
  · intro h1 h2
    rw [headingText, if_neg (by rintro ⟨rfl, h⟩; rw [h1 rfl] at h; cases h), if_neg (by rintro ⟨rfl, h⟩; rw [h2 rfl] at h; cases h)]
    exact ⟨List.replicate level '#', by simp, by simp, fun c hc => List.eq_of_mem_replicate hc⟩

/-- **C46 (partial).** Full statement: without `HeadingOk`. What is written for a heading reads
as a heading of the same level with the text that is written for it at any other level, unless
the text begins like another block, ends with a number sign or has no width. -/
theorem c46_reads_partial (cx : Cx) (p : Pos) (cs : List Node) (nb : Bool) (st : St) : ∃ text,
    (∃ out, (ser cx (.mk (.heading 6) p cs) nb st).output = st.output ++ out ∧ out = "###### ".toList ++ text ++ ['\n']) ∧
    (HeadingOk cx.width text → ∀ level, 1 ≤ level → level ≤ 6 →
      ∃ out, (ser cx (.mk (.heading level) p cs) nb st).output = st.output ++ out ∧ readHeading out = some (level, text)) := by
  refine ⟨headingShown cx cs st, ⟨_, ser_heading_output cx 6 p cs nb st, ?_⟩, fun hok level h1 h6 => ⟨_, ser_heading_output cx level p cs nb st, ?_⟩⟩
  · rw [headingText, if_neg (by simp), if_neg (by simp)]; rfl
  · rw [headingText]
    split
    · rename_i h
      rw [setext_reads hok (.inl rfl), h.1]; rfl
    · split
      · rename_i h
        rw [setext_reads hok (.inr rfl), h.1]; rfl
      · exact atx_reads hok h1 h6

example : readHeading (formatDoc codeCx (exDoc [.mk (.heading 2) ⟨1, 1, 1, 1⟩ [exText "A b. c"]])).output =
    some (2, "A b. c".toList) := by decide +kernel

example : HeadingOk List.length "A b. c".toList := ⟨by decide, by decide, by decide +kernel, by decide, by decide⟩

/-- The claim of C46 for a heading with one text. -/
def ReadsAs (cx : Cx) (level : Nat) (text : String) : Prop :=
  readHeading (formatDoc cx (exDoc [.mk (.heading level) ⟨1, 1, 1, 1⟩ [exText text]])).output = some (level, text.toList)

instance (cx : Cx) (level : Nat) (text : String) : Decidable (ReadsAs cx level text) :=
  inferInstanceAs (Decidable (_ = _))

/-- **C46.** The claim is false for a numbered title: `# 1. Introduction` becomes a list item. -/
theorem c46_number_false : ¬ ∀ (cx : Cx) (level : Nat) (text : String), 1 ≤ level → level ≤ 6 →
    atxLine (List.replicate level '#' ++ [' '] ++ text.toList) = some (level, text.toList) → ReadsAs cx level text := by
  intro h
  have := h codeCx 1 "1. Introduction" (by decide) (by decide) (by decide +kernel)
  revert this
  decide +kernel

/-- **C46.** It is false for an empty heading, which vanishes. -/
theorem c46_empty_false : ¬ ∀ (cx : Cx) (level : Nat), 1 ≤ level → level ≤ 6 →
    atxLine (List.replicate level '#') = some (level, []) → ReadsAs cx level "" := by
  intro h
  have := h codeCx 1 (by decide) (by decide) (by decide +kernel)
  revert this
  decide +kernel

/-- A context in which the zero width space has no width. -/
def zeroCx : Cx :=
  { codeCx with width := fun s => (s.filter (· ≠ '​')).length }

/-- **C46.** It is false for a text without width: its underline is empty. -/
theorem c46_width_false : ¬ ∀ (cx : Cx) (level : Nat) (text : String), 1 ≤ level → level ≤ 6 →
    atxLine (List.replicate level '#' ++ [' '] ++ text.toList) = some (level, text.toList) →
    startsBlock text.toList = false → ReadsAs cx level text := by
  intro h
  have := h zeroCx 1 "​" (by decide) (by decide) (by decide +kernel) (by decide +kernel)
  revert this
  decide +kernel

/-- **C46.** It is false for a text that ends with number signs, as a setext heading can have it:
`About C #` comes back as `About C` if headings are written with number signs. -/
theorem c46_closing_false : ¬ ∀ (cx : Cx) (level : Nat) (text : String), 1 ≤ level → level ≤ 2 →
    readHeading (text.toList ++ "\n=".toList) = some (1, text.toList) → ReadsAs cx level text := by
  intro h
  have := h (exWith { defaultOptions with setextH1 := false }) 1 "About C #" (by decide) (by decide) (by decide +kernel)
  revert this
  decide +kernel

/-! ### C47 -/

/-- **C47 (partial).** Full statement: without `KeptInlines`. All letters, digits and characters of
other scripts of the texts, the code and the descriptions of images in a heading are in the
output, in order, if the heading has only texts, code, emphasis, and links and images of texts. -/
theorem c47_content_partial (cx : Cx) (level : Nat) (p : Pos) (cs : List Node) (nb : Bool) (st : St)
    (hen : ∀ p ∈ cx.opts.punct.enDash, ValidPattern p ∧ ∀ c ∈ p, isContent c = false)
    (hem : ∀ p ∈ cx.opts.punct.emDash, ValidPattern p ∧ ∀ c ∈ p, isContent c = false)
    (hs : cx.opts.headingSentenceCase = false) (hc : KeptInlines cx cs) :
    ∃ out, (ser cx (.mk (.heading level) p cs) nb st).output = st.output ++ out ∧ (contentsOf cs).Sublist out := by
  refine ⟨_, ser_heading_output cx level p cs nb st, ?_⟩
  have h : (contentsOf cs).Sublist (headingShown cx cs st) := by
    rw [headingShown, hs]
    exact collectTexts_content ⟨hen, hem⟩ cs hc
  refine h.trans ?_
  rw [headingText]
  split
  · simp only [List.append_assoc]; exact List.sublist_append_left _ _
  · split
    · simp only [List.append_assoc]; exact List.sublist_append_left _ _
    · exact (List.sublist_append_right _ _).trans (List.sublist_append_left _ _)

example : (formatDoc codeCx (exDoc [.mk (.heading 1) ⟨1, 1, 1, 1⟩ [exText "a ", .mk (.code "b c".toList) ⟨1, 1, 1, 1⟩ [],
      .mk .strong ⟨1, 1, 1, 1⟩ [exText "\"d\""], exLink "e" "http://x"]])).output =
    "a `b c`**“d”**[e]\n=================\n\n[e]: http://x\n".toList := by decide +kernel

/-- The claim of C47: the content is in the output of the document. -/
def KeepsContent (cx : Cx) (cs : List Node) : Prop :=
  (contentsOf cs).isSublist (formatDoc cx (exDoc [.mk (.heading 1) ⟨1, 1, 1, 1⟩ cs])).output = true

instance (cx : Cx) (cs : List Node) : Decidable (KeepsContent cx cs) := inferInstanceAs (Decidable (_ = _))

/-- **C47.** The claim is false for code in a link: of `# [the Foo type](#foo)`, with code around
Foo, the code is lost. -/
theorem c47_code_false : ¬ ∀ (cx : Cx) (a code b : String), KeepsContent cx
    [.mk (.link "#foo".toList []) ⟨1, 1, 1, 1⟩ [exText a, .mk (.code code.toList) ⟨1, 1, 1, 1⟩ [], exText b]] := by
  intro h
  have := h codeCx "the " "Foo" " type"
  revert this
  decide +kernel

/-- **C47.** Footnote references and HTML in headings are lost: nothing in the output tells that
they were there. -/
theorem c47_footnote_false : ¬ ∀ (cx : Cx) (a name : String),
    (formatDoc cx (exDoc [.mk (.heading 1) ⟨1, 1, 1, 1⟩ [exText a, .mk (.footnoteReference name.toList) ⟨1, 1, 1, 1⟩ []]])).output ≠
    (formatDoc cx (exDoc [.mk (.heading 1) ⟨1, 1, 1, 1⟩ [exText a]])).output := by
  intro h
  exact h codeCx "a" "1" (by decide +kernel)

theorem c47_html_false : ¬ ∀ (cx : Cx) (a html : String),
    (formatDoc cx (exDoc [.mk (.heading 1) ⟨1, 1, 1, 1⟩ [exText a, .mk (.htmlInline html.toList) ⟨1, 1, 1, 1⟩ []]])).output ≠
    (formatDoc cx (exDoc [.mk (.heading 1) ⟨1, 1, 1, 1⟩ [exText a]])).output := by
  intro h
  exact h codeCx "a" "<a id=\"x\">" (by decide +kernel)

/-- **C47.** A hard line break in a heading is lost, and the words around it become one. -/
theorem c47_break_false : ¬ ∀ (cx : Cx) (a b : String),
    ¬ a.toList ++ b.toList <:+: (formatDoc cx (exDoc [.mk (.heading 1) ⟨1, 1, 1, 1⟩
      [exText a, .mk .lineBreak ⟨1, 1, 1, 1⟩ [], exText b]])).output := by
  intro h
  have e : (formatDoc codeCx (exDoc [.mk (.heading 1) ⟨1, 1, 1, 1⟩
      [exText "foo", .mk .lineBreak ⟨1, 1, 1, 1⟩ [], exText "bar"]])).output = "foobar\n======\n".toList := by decide +kernel
  have := h codeCx "foo" "bar"
  rw [e] at this
  exact this (by decide +kernel)

/-! ### C77 -/

/-- A context with sentence case. -/
def sentenceCx : Cx := exWith { defaultOptions with headingSentenceCase := true }

/-- C77: the definitions that a heading asks for do not depend on sentence case. -/
theorem c77_definitions (cx cx' : Cx) (level : Nat) (p : Pos) (cs : List Node) (nb : Bool) (st : St)
    (h : ∃ b, cx' = { cx with opts := { cx.opts with headingSentenceCase := b } }) :
    (ser cx' (.mk (.heading level) p cs) nb st).pendingReferences = (ser cx (.mk (.heading level) p cs) nb st).pendingReferences := by
  obtain ⟨b, rfl⟩ := h
  simp only [ser, dispatch, serHeading, serKids_nodes, St.push, collectTexts_case]

/-- **C77.** The claim is false: sentence case changes the target of an inline link: ... -/
theorem c77_target_false : ¬ ∀ (cx : Cx) (text url : String), isExternalUrl url.toList = false →
    url.toList <:+: (formatDoc cx (exDoc [.mk (.heading 1) ⟨1, 1, 1, 1⟩ [exLink text url]])).output := by
  intro h
  have e : (formatDoc sentenceCx (exDoc [.mk (.heading 1) ⟨1, 1, 1, 1⟩ [exLink "Docs" "/Docs/Intro.html"]])).output =
      "[docs](/docs/Intro.html)\n========================\n".toList := by decide +kernel
  have := h sentenceCx "Docs" "/Docs/Intro.html" (by decide +kernel)
  rw [e] at this
  revert this
  decide +kernel

/-- **C77.** ... and the quotation marks in a label, but not in the definition of the label: the
labels differ in more than case, so there is no link any more. -/
theorem c77_label_false : ¬ ∀ (cx : Cx) (text url : String) (line label label' : List Char), isExternalUrl url.toList = true →
    (formatDoc cx (exDoc [.mk (.heading 1) ⟨1, 1, 1, 1⟩ [exLink text url]])).output =
      ['['] ++ label ++ "]\n".toList ++ line ++ "\n\n[".toList ++ label' ++ "]: ".toList ++ url.toList ++ ['\n'] →
    label.map Char.toLower = label'.map Char.toLower := by
  intro h
  have := h sentenceCx "\"New\" docs" "http://x" "============".toList "“New” docs".toList "\"New\" docs".toList
    (by decide +kernel) (by decide +kernel)
  revert this
  decide +kernel

end Hongdown.Props
