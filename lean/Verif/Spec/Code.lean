import Verif.Str

/-!
# Reading fenced code blocks

How a CommonMark reader sees a fenced code block (CommonMark 0.31, section 4.5). This
does not mention the formatter. Lines are without their line endings.
-/

namespace Hongdown.Spec

/-- The text made of complete lines. -/
def unlines (ls : List (List Char)) : List Char := (ls.map (· ++ ['\n'])).flatten

/-- A list of lines: no line contains a line feed or ends in a carriage return. -/
def AreLines (ls : List (List Char)) : Prop := ∀ l ∈ ls, '\n' ∉ l ∧ l.getLast? ≠ some '\r'

/-- Spaces and tabs. -/
def isBlankChar (c : Char) : Bool := c = ' ' || c = '\t'

/-- Remove spaces and tabs at both ends. -/
def strip (s : List Char) : List Char :=
  ((s.dropWhile isBlankChar).reverse.dropWhile isBlankChar).reverse

/-- An opening fence: its character, its length and the info string. -/
structure Fence where
  char : Char
  length : Nat
  info : List Char
  deriving DecidableEq

/-- Read an opening fence: at most three spaces, three or more backquotes or tildes, the
info string. The info string after backquotes has no backquote. -/
def readOpening (line : List Char) : Option Fence :=
  let body := line.dropWhile (· = ' ')
  if 3 < (line.takeWhile (· = ' ')).length then none
  else match body with
    | [] => none
    | c :: _ =>
      let run := (body.takeWhile (· = c)).length
      let info := strip (body.drop run)
      if (c = '`' ∧ '`' ∉ info ∨ c = '~') ∧ 3 ≤ run then some ⟨c, run, info⟩ else none

/-- Is the line a closing fence: at most three spaces, at least as many fence characters as
the opening fence has, then only spaces and tabs. -/
def isClosing (c : Char) (n : Nat) (line : List Char) : Bool :=
  let body := line.dropWhile (· = ' ')
  let run := (body.takeWhile (· = c)).length
  (line.takeWhile (· = ' ')).length ≤ 3 && n ≤ run && (body.drop run).all isBlankChar

/-- The lines up to the closing fence and the lines after it. -/
def readBody (c : Char) (n : Nat) : List (List Char) → List (List Char) × List (List Char)
  | [] => ([], [])
  | l :: ls =>
    if isClosing c n l then ([], ls)
    else (l :: (readBody c n ls).1, (readBody c n ls).2)

/-- Read a fenced code block: info string, content, the lines that follow. -/
def readFenced : List (List Char) → Option (List Char × List (List Char) × List (List Char))
  | [] => none
  | l :: ls => (readOpening l).map fun f =>
      (f.info, (readBody f.char f.length ls).1, (readBody f.char f.length ls).2)

/-- The content of a line of a block quote: `>` and one optional space are removed. -/
def unquote : List Char → Option (List Char)
  | '>' :: ' ' :: l => some l
  | '>' :: l => some l
  | _ => none

/-- Remove `n` spaces of indentation; a line that is too short and has only spaces is an
empty line. -/
def unindent (n : Nat) (line : List Char) : Option (List Char) :=
  if (line.take n).all (· = ' ') then some (line.drop n) else none

/-- The info string that is shown: the given one without surrounding white space, or the
default if there is none. -/
def shownInfo (dflt info : List Char) : List Char := if trim info = [] then dflt else trim info

/-- The info string can stand after the fence: no line feed, no backquote after backquotes,
and without a space between it does not begin with the fence character. -/
def InfoFits (fc : Char) (space : Bool) (info : List Char) : Prop :=
  '\n' ∉ info ∧ (fc = '`' → '`' ∉ info) ∧ (space = false → info.head? ≠ some fc)

/-- The language of a code block: the first word of the info string, or the default. -/
def languageOf (dflt info : List Char) : List Char :=
  match splitWs info with
  | [] => dflt
  | w :: _ => w

/-- The formatter for a code block: the one for its language, unless the info string has
the word `hongdown-no-format` or there is no language. -/
def chosenFormatter {α : Type} (formatters : List (List Char × α)) (dflt info : List Char) :
    Option α :=
  if "hongdown-no-format".toList ∈ splitWs info ∨ languageOf dflt info = [] then none
  else formatters.lookup (languageOf dflt info)

end Hongdown.Spec
