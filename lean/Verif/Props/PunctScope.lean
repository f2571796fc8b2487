import Verif.Props.Unused
import Verif.Props.Sentence

/-!
# C105: punctuation is transformed in text only
-/

namespace Hongdown.Props
open Model Spec

/-- **C105 (partial).** Full statement: no transformation of code at all (`c105_code_heading_false`), and none of what is
switched off (`c105_heading_false`). The section `punctuation` counts only for the marks in the text of a document. Code
spans, code blocks, addresses, titles and HTML are not text; whatever marks are in them, everything the serializer makes of
the document is the same under all settings that agree for its text. -/
theorem c105_scope_partial (cx : Cx) (q : PunctOpts) (p : Pos) (cs : List Node) (hw : wellPlacedDoc cs = true)
    (h : ∀ t, .text t ∈ kindsList cs → SamePunct cx.opts.punct q t) :
    formatDoc { cx with opts := { cx.opts with punct := q } } (.mk .document p cs) = formatDoc cx (.mk .document p cs) :=
  c99_settings_partial cx { cx.opts with punct := q } p cs hw {
    lineWidth := fun _ => rfl
    setextH1 := fun _ => rfl
    setextH2 := fun _ => rfl
    sentenceCase := fun _ => rfl
    nouns := fun _ _ => ⟨rfl, rfl⟩
    bullets := fun _ => ⟨rfl, rfl, rfl⟩
    trailing := fun _ => rfl
    ordered := fun _ => ⟨rfl, rfl, rfl⟩
    code := fun _ => ⟨rfl, rfl, rfl, rfl⟩
    language := fun _ => rfl
    breaks := fun _ => ⟨rfl, rfl⟩
    punct := h }

/-- A text with no mark of any setting: no straight quotation mark or apostrophe, no three periods, no dash pattern. -/
def Plain (t : List Char) : Prop :=
  '"' ∉ t ∧ '\'' ∉ t ∧ ¬ ['.', '.', '.'] <:+: t

/-- Without dash patterns and marks in the text, all settings for quotation marks, apostrophes and ellipses do the same. -/
theorem c105_plain_partial (cx : Cx) (q : PunctOpts) (p : Pos) (cs : List Node) (hw : wellPlacedDoc cs = true)
    (hem : q.emDash = cx.opts.punct.emDash) (hen : q.enDash = cx.opts.punct.enDash)
    (h : ∀ t, .text t ∈ kindsList cs → Plain t) :
    formatDoc { cx with opts := { cx.opts with punct := q } } (.mk .document p cs) = formatDoc cx (.mk .document p cs) :=
  c105_scope_partial cx q p cs hw fun t ht =>
    have ⟨h1, h2, h3⟩ := h t ht
    ⟨.inl hem.symm, .inl hen.symm, fun x => absurd x h3, fun x => absurd x h1, fun x => absurd x h2⟩

/-- Marks of every kind in a code span, a code block and the address of a link; none in the text. -/
def exMarks : List Node :=
  let p : Pos := ⟨1, 1, 1, 1⟩
  [exPar [exText "Use ", .mk (.code "\"a\" 'b'... -- c".toList) p [], exText " or ",
      .mk (.link "x--'y'...".toList []) p [exText "z"]],
   .mk (.codeBlock "c".toList "puts(\"a--b...\");\n".toList) p []]

/-- Settings that differ from the defaults in all but the en dash. -/
def exNoMarks : PunctOpts :=
  { curlyDouble := false, curlySingle := false, curlyApostrophes := true, ellipsis := false, enDash := none
    emDash := none }

example : wellPlacedDoc exMarks = true := by decide +kernel
example : ∀ t, .text t ∈ kindsList exMarks → SamePunct defaultOptions.punct exNoMarks t := by
  intro t ht
  have ht : t = "Use ".toList ∨ t = " or ".toList ∨ t = "z".toList := by
    simpa [exMarks, exPar, exText, kindsList, kinds] using ht
  rcases ht with rfl | rfl | rfl <;>
  refine ⟨.inr fun p hp => ?_, .inl rfl, fun h => absurd h (by decide +kernel), fun h => absurd h (by decide +kernel),
    fun h => absurd h (by decide +kernel)⟩ <;>
  · have : p = ['-', '-'] := by
      rcases hp with hp | hp
      · exact (Option.some.inj hp).symm
      · exact absurd hp (by simp [exNoMarks])
    subst this
    decide +kernel
example : (formatDoc codeCx (exDoc exMarks)).output =
    "Use `\"a\" 'b'... -- c` or [z](x--'y'...)\n\n~~~~ c\nputs(\"a--b...\");\n~~~~\n".toList := by decide +kernel

/-- All settings off. -/
def noPunct : PunctOpts :=
  { curlyDouble := false, curlySingle := false, curlyApostrophes := false, ellipsis := false, enDash := none, emDash := none }

/-- A heading of a text, code and a text. -/
def codeHeading (l : Nat) (a c b : List Char) : Node :=
  let p : Pos := ⟨1, 1, 1, 1⟩
  .mk (.heading l) p [.mk (.text a) p [], .mk (.code c) p [], .mk (.text b) p []]

/-- **C105 is false** of headings in sentence case: with all settings off, their double quotation marks are curled. -/
theorem c105_heading_false : ¬ ∀ (cx : Cx) (l : Nat) (t : List Char), cx.opts.punct = noPunct → '”' ∉ t →
    '”' ∉ (formatDoc cx (exDoc [.mk (.heading l) ⟨1, 1, 1, 1⟩ [.mk (.text t) ⟨1, 1, 1, 1⟩ []]])).output := by
  intro h
  have := h (exWith { defaultOptions with headingSentenceCase := true, punct := noPunct }) 3 "The \"foo\" Thing".toList rfl
    (by decide +kernel)
  revert this
  decide +kernel

/-- **C105 is false** of code with a backquote in such headings: the marks after its first backquote are curled. -/
theorem c105_code_heading_false : ¬ ∀ (cx : Cx) (l : Nat) (a c b : List Char), cx.opts.punct = noPunct → '\n' ∉ c →
    c <:+: (formatDoc cx (exDoc [codeHeading l a c b])).output := by
  intro h
  have := h (exWith { defaultOptions with headingSentenceCase := true, punct := noPunct }) 3 "The ".toList
    "a\"b\" ` C".toList " Thing".toList rfl (by decide +kernel)
  revert this
  decide +kernel

example : (formatDoc (exWith { defaultOptions with headingSentenceCase := true, punct := noPunct })
    (exDoc [codeHeading 3 "The ".toList "a\"b\" ` C".toList " Thing".toList])).output =
    "### The ``a”b” ` C`` Thing\n".toList := by decide +kernel
/-- Other code is kept. -/
example : (formatDoc (exWith { defaultOptions with headingSentenceCase := true })
    (exDoc [codeHeading 3 "The ".toList "a\"b\" C".toList " Thing".toList])).output =
    "### The `a\"b\" C` thing\n".toList := by decide +kernel

end Hongdown.Props
