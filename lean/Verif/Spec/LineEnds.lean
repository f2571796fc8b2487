/-!
# Line ends (C104)

A line ends with a line feed, or with a carriage return and a line feed.
-/

namespace Hongdown.Spec

/-- The text with a carriage return before each line feed. -/
def crlf : List Char → List Char
  | [] => []
  | c :: cs => if c = '\n' then '\r' :: '\n' :: crlf cs else c :: crlf cs

/-- The text with each `\r\n` replaced by `\n`. -/
def unixEnds : List Char → List Char
  | [] => []
  | c :: cs => if c = '\r' ∧ cs.head? = some '\n' then unixEnds cs else c :: unixEnds cs

/-- No line ends with `\r\n`. -/
def UnixText (s : List Char) : Prop := ¬ ['\r', '\n'] <:+: s

example : crlf "a\n\nb".toList = "a\r\n\r\nb".toList ∧ unixEnds "a\r\nb\nc\rd\r\n".toList = "a\nb\nc\rd\n".toList := by decide +kernel

end Hongdown.Spec
