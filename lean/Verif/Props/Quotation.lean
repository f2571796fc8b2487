import Verif.Lemmas.Quotation
import Verif.Props.Refs

/-!
# Quotation marks and the places where a text is divided: C90

The parser divides the text of a paragraph at line breaks and at markup, and each piece is converted by
itself (src/serializer/inline.rs:41-51 and 134-144).
-/

namespace Hongdown.Props
open Model Spec

/-- C90. Where every double quotation mark stands clearly at the beginning or at the end of a quotation, the
lines of a text are converted as the text on one line is. -/
theorem c90_lines_partial (x y : List Char) (hx : ClearQuotes x) (hy : ClearQuotes y) :
    transformDoubleQuotes (x ++ ' ' :: y) = transformDoubleQuotes x ++ ' ' :: transformDoubleQuotes y :=
  double_lines hx hy

example : ¬ ClearQuotes "a \" b".toList := fun h =>
  absurd (h "a ".toList " b".toList (by decide)) (by decide)

example : transformDoubleQuotes "say \"one two\" now".toList =
    transformDoubleQuotes "say \"one".toList ++ ' ' :: transformDoubleQuotes "two\" now".toList := by decide

/-- C90. The same holds of pieces divided by markup, if no piece begins or ends with a quotation mark. -/
theorem c90_pieces_partial (ps : List (List Char))
    (h : ∀ p ∈ ps, ClearQuotes p ∧ p.head? ≠ some '"' ∧ p.getLast? ≠ some '"') :
    transformDoubleQuotes ps.flatten = (ps.map transformDoubleQuotes).flatten :=
  (double_pieces h).2

example : transformDoubleQuotes "say \"one two\" now".toList =
    (["say \"one ".toList, "two".toList, "\" now".toList].map transformDoubleQuotes).flatten → False := by decide

example : (["say \"one ".toList, "two".toList, " three\" now".toList].map transformDoubleQuotes).flatten =
    "say “one two three” now".toList := by decide

/-- C90. A text that begins with a double quotation mark gets an opening one, whatever follows: the mark
that ends a quotation after emphasis, code or a link is turned round. -/
theorem c90_turned (u : Uni) (o : PunctOpts) (hd : o.curlyDouble = true)
    (hp : ∀ p, o.emDash = some p ∨ o.enDash = some p → '"' ∉ p) (s : List Char) :
    (transformPunctuation u o ('"' :: s)).head? = some '“' := by
  obtain ⟨s', e⟩ := punctuation_head hd hp s
  rw [e]; rfl

example : transformPunctuation asciiUni codeCx.opts.punct "\", and left.".toList = "“, and left.".toList := by decide

/-! ### In documents -/

def spanText (s : List Char) (line col : Nat) : Node := .mk (.text s) ⟨line, col, line, col + s.length - 1⟩ []

def spanDoc (last col : Nat) (cs : List Node) : Node :=
  .mk .document ⟨1, 1, last, col⟩ [.mk .paragraph ⟨1, 1, last, col⟩ cs]

/-- What the source `a "*x*", b.` is formatted to, with the tree the parser makes of it. -/
def quotedEmphasis (a x b : List Char) : List Char :=
  let s1 := a ++ [' ', '"']
  let s2 := ['"', ','] ++ ' ' :: b ++ ['.']
  let src := s1 ++ '*' :: x ++ '*' :: s2
  (formatDoc (withSource codeCx (src ++ ['\n'])) (spanDoc 1 src.length
    [spanText s1 1 1, .mk .emph ⟨1, s1.length + 1, 1, s1.length + x.length + 2⟩ [spanText x 1 (s1.length + 2)],
      spanText s2 1 (s1.length + x.length + 3)])).output

/-- What the source `a "x", b.` is formatted to. -/
def quotedPlain (a x b : List Char) : List Char :=
  let src := a ++ [' ', '"'] ++ x ++ ['"', ','] ++ ' ' :: b ++ ['.']
  (formatDoc (withSource codeCx (src ++ ['\n'])) (spanDoc 1 src.length [spanText src 1 1])).output

/-- What the source `'x y'` is formatted to, on one line and on two. -/
def quotedOneLine (x y : List Char) : List Char :=
  let src := '\'' :: x ++ ' ' :: y ++ ['\'']
  (formatDoc (withSource codeCx (src ++ ['\n'])) (spanDoc 1 src.length [spanText src 1 1])).output

def quotedTwoLines (x y : List Char) : List Char :=
  let src := '\'' :: x ++ '\n' :: y ++ ['\'']
  (formatDoc (withSource codeCx (src ++ ['\n'])) (spanDoc 2 (y.length + 1)
    [spanText ('\'' :: x) 1 1, .mk .softBreak ⟨1, x.length + 2, 1, x.length + 2⟩ [], spanText (y ++ ['\'']) 2 1])).output

example : quotedPlain "He said".toList "yes".toList "and left".toList = "He said “yes”, and left.\n".toList := by
  decide +kernel

example : quotedEmphasis "He said".toList "yes".toList "and left".toList = "He said “*yes*“, and left.\n".toList := by
  decide +kernel

/-- C90 is false: emphasis inside a quotation leaves it without a closing mark. -/
theorem c90_emphasis_false : ¬ ∀ a x b : List Char,
    (∀ c ∈ a ++ x ++ b, c.isAlpha = true ∨ c = ' ') → (∀ c ∈ x, c ≠ ' ') → x ≠ [] → a ≠ [] → b ≠ [] →
      quotesPaired false (quotedEmphasis a x b) = true := by
  intro h
  exact absurd (h "He said".toList "yes".toList "and left".toList (by decide) (by decide) (by decide) (by decide) (by decide))
    (by decide +kernel)

/-- C90 is false: whether single quotation marks are converted depends on the line breaks of the source. -/
theorem c90_break_false : ¬ ∀ x y : List Char, (∀ c ∈ x ++ y, c.isAlpha = true) → x ≠ [] → y ≠ [] →
    (quotedTwoLines x y).map (fun c => if c = '\n' then ' ' else c) =
      (quotedOneLine x y).map (fun c => if c = '\n' then ' ' else c) := by
  intro h
  exact absurd (h "one".toList "two".toList (by decide) (by decide) (by decide)) (by decide +kernel)

example : quotedOneLine "one".toList "two".toList = "‘one two’\n".toList := by decide +kernel

example : quotedTwoLines "one".toList "two".toList = "’one\ntwo'\n".toList := by decide +kernel

/-- Apostrophes of C95 in a whole document. -/
example : (formatDoc codeCx (exDoc [exPar [exText "C#'s great, the '90s, don't"]])).1 =
    "C#‘s great, the ’90s, don't\n".toList := by decide +kernel

end Hongdown.Props
