import Verif.Lemmas.UnusedDoc
import Verif.Spec.Unused
import Verif.Props.Lists

/-!
# C99: a setting matters only for documents with the blocks it is for
-/

namespace Hongdown.Props
open Model Spec

/-- **C99 (partial).** Full statement: with `trailing_spaces` for unordered lists alone (`c99_trailing_false`). If two sets
of options agree on what is said about the kinds of nodes of a document, everything the serializer makes of it is the same:
text, references, warnings. -/
theorem c99_settings_partial (cx : Cx) (o : Options) (p : Pos) (cs : List Node) (hw : wellPlacedDoc cs = true)
    (h : SameFor (· ∈ kindsList cs) cx.opts o) :
    formatDoc { cx with opts := o } (.mk .document p cs) = formatDoc cx (.mk .document p cs) :=
  formatDoc_same h p cs hw fun _ hv => hv

/-- The same for a run on a text, with any parser. -/
theorem c99_run_partial (cx : Cx) (o : Options) (parse : List Char → Node) (input : List Char) (p : Pos) (cs : List Node)
    (hp : parse input = .mk .document p cs) (hw : wellPlacedDoc cs = true) (h : SameFor (· ∈ kindsList cs) cx.opts o) :
    formatWithWarnings { cx with opts := o } parse input = formatWithWarnings cx parse input := by
  unfold formatWithWarnings
  split
  · rfl
  · have := c99_settings_partial (withSource cx input) o p cs hw h
    rw [hp]
    have e : withSource { cx with opts := o } input = { withSource cx input with opts := o } := rfl
    rw [e, this]

/-- A document of paragraphs and a thematic break. -/
def exUnused : List Node :=
  [exPar [exText "\"a\" b"], .mk .thematicBreak ⟨1, 1, 1, 1⟩ [], exPar [.mk .emph ⟨1, 1, 1, 1⟩ [exText "c"]]]

/-- Options that differ from the defaults for all but line width, thematic breaks and punctuation. -/
def exOther : Options :=
  { defaultOptions with
    setextH1 := false, setextH2 := false, headingSentenceCase := true, headingProperNouns := ["A".toList]
    headingCommonNouns := ["B".toList], unorderedMarker := '*', leadingSpaces := 0, trailingSpaces := 1, indentWidth := 2
    oddLevelMarker := ')', evenLevelMarker := '.', orderedListIndentWidth := 3, fenceChar := '`', minFenceLength := 3
    spaceAfterFence := false, defaultLanguage := "text".toList }

example : SameFor (· ∈ kindsList exUnused) defaultOptions exOther where
  lineWidth _ := rfl
  setextH1 h := absurd h (by decide +kernel)
  setextH2 h := absurd h (by decide +kernel)
  sentenceCase h := by obtain ⟨l, h⟩ := h; simp [exUnused, exPar, exText, kindsList, kinds] at h
  nouns h := by obtain ⟨l, h⟩ := h; simp [exUnused, exPar, exText, kindsList, kinds] at h
  bullets h := by obtain ⟨l, h⟩ := h; simp [exUnused, exPar, exText, kindsList, kinds] at h
  trailing h := by
    rcases h with ⟨l, h⟩ | ⟨⟨l, h⟩, _⟩
    · simp [exUnused, exPar, exText, kindsList, kinds] at h
    · simp [exUnused, exPar, exText, kindsList, kinds] at h
  ordered h := by obtain ⟨l, h⟩ := h; simp [exUnused, exPar, exText, kindsList, kinds] at h
  code h := by obtain ⟨i, l, h⟩ := h; simp [exUnused, exPar, exText, kindsList, kinds] at h
  language h := by obtain ⟨i, l, h, _⟩ := h; simp [exUnused, exPar, exText, kindsList, kinds] at h
  breaks _ := ⟨rfl, rfl⟩
  punct _ _ := ⟨.inl rfl, .inl rfl, fun _ => rfl, fun _ => rfl, fun _ => ⟨rfl, rfl⟩⟩

example : wellPlacedDoc exUnused = true := by decide +kernel
example : (formatDoc (exWith { exOther with thematicBreakStyle := "***".toList }) (exDoc exUnused)).output =
    "“a” b\n\n   ***\n\n*c*\n".toList := by decide +kernel
/-- The settings do matter for other documents. -/
example : (formatDoc (exWith exOther) (exDoc [exList .bullet [[exPar [exText "a"]]]])).output ≠
    (formatDoc (exWith defaultOptions) (exDoc [exList .bullet [[exPar [exText "a"]]]])).output := by decide +kernel

/-- The witness: in a description, an ordered list whose item has two lines. -/
def exDescribed : List Node :=
  let p : Pos := ⟨1, 1, 1, 1⟩
  [.mk .descriptionList p [.mk .descriptionItem p [.mk .descriptionTerm p [exPar [exText "t"]],
    .mk .descriptionDetails p [exPar [exText "d"], exList .ordered [[exPar [exText "a", .mk .softBreak p [], exText "b"]]]]]]]

/-- **C99 is false** of `trailing_spaces`: it is a setting for unordered lists (README.md:221-225), but the second line of an
ordered item in a description moves with it. -/
theorem c99_trailing_false : ¬ ∀ (o o' : Options) (cs : List Node), wellPlacedDoc cs = true →
    { o with trailingSpaces := o'.trailingSpaces } = o' → (∀ t, .list .bullet t ∉ kindsList cs) →
    (formatDoc (exWith o) (exDoc cs)).output = (formatDoc (exWith o') (exDoc cs)).output := by
  intro h
  have := h defaultOptions { defaultOptions with trailingSpaces := 1 } exDescribed (by decide +kernel) rfl
    (by intro t ht; simp [exDescribed, exPar, exText, exList, exItem, kindsList, kinds] at ht)
  revert this
  decide +kernel

example : (formatDoc codeCx (exDoc exDescribed)).output = "t\n:   d\n\n     1.  a\n        b\n".toList := by decide +kernel

end Hongdown.Props
