/-!
# Readers for CommonMark inline syntax

Written from the CommonMark 0.31 specification, not from the formatter. They are
used to state what the formatter's output means.
-/

namespace Hongdown.Spec

/-- "ASCII punctuation character" as listed in CommonMark section 2.1. -/
def asciiPunctuation : List Char :=
  ['!', '"', '#', '$', '%', '&', '\'', '(', ')', '*', '+', ',', '-', '.', '/',
   ':', ';', '<', '=', '>', '?', '@', '[', '\\', ']', '^', '_', '`', '{', '|', '}', '~']

/-- Backslash escapes (CommonMark 2.4): the text denoted by `s`. A backslash before
ASCII punctuation stands for that character, any other backslash for itself. -/
def unescape : List Char → List Char
  | [] => []
  | ['\\'] => ['\\']
  | '\\' :: c :: rest =>
    if c ∈ asciiPunctuation then c :: unescape rest else '\\' :: unescape (c :: rest)
  | c :: rest => c :: unescape rest

/-- The characters of `s` that are not consumed by a backslash escape, i.e. those
which can still act as delimiters. -/
def liveChars : List Char → List Char
  | [] => []
  | ['\\'] => ['\\']
  | '\\' :: c :: rest =>
    if c ∈ asciiPunctuation then liveChars rest else '\\' :: liveChars (c :: rest)
  | c :: rest => c :: liveChars rest

/-- The bracket scan of CommonMark's "look for link or image": `depth` counts the
live `[` that are still open. The result says whether some live `]` that has an
open partner is directly followed by `(` or `[`, which is what an inline link, a
full or a collapsed reference needs. -/
def mayFormLink (depth : Nat) : List Char → Bool
  | [] => false
  | ['\\'] => false
  | '\\' :: c :: rest =>
    if c ∈ asciiPunctuation then mayFormLink depth rest else mayFormLink depth (c :: rest)
  | '[' :: rest => mayFormLink (depth + 1) rest
  | ']' :: rest =>
    if depth = 0 then mayFormLink 0 rest
    else if rest.head? = some '(' ∨ rest.head? = some '[' then true
    else mayFormLink (depth - 1) rest
  | _ :: rest => mayFormLink depth rest

/-- The length of the run of backticks at the front, and the rest. -/
def tickRun : List Char → Nat × List Char
  | '`' :: rest => ((tickRun rest).1 + 1, (tickRun rest).2)
  | s => (0, s)

/-- `findClose n skip s`: the content up to the first run of exactly `n` backticks
and what follows the run. `skip` is the number of backticks read so far in the
current run. The list is scanned one character at a time. -/
def findClose (n : Nat) : Nat → List Char → Option (List Char × List Char)
  | run, [] => if run = n then some ([], []) else none
  | run, c :: rest =>
    if c = '`' then findClose n (run + 1) rest
    else if run = n ∧ run ≠ 0 then some ([], c :: rest)
    else (findClose n 0 rest).map fun (a, b) => (List.replicate run '`' ++ c :: a, b)

/-- CommonMark 6.1: if the content both begins and ends with a space and is not
only spaces, one space is removed from either end. -/
def stripCodeSpaces (s : List Char) : List Char :=
  if s.head? = some ' ' ∧ s.getLast? = some ' ' ∧ s.any (· ≠ ' ') then s.tail.dropLast
  else s

/-- Read a code span at the front of `s` (CommonMark 6.1): its literal and what
follows. Contents with line endings are outside of this reader's use. -/
def readCodeSpan (s : List Char) : Option (List Char × List Char) :=
  let r := tickRun s
  if r.1 = 0 then none
  else (findClose r.1 0 r.2).map fun (a, b) => (stripCodeSpaces a, b)

/-- GFM cell boundaries: the number of pipes in `s` which are not escaped, where
a backslash takes the following character with it. -/
def livePipes : List Char → Nat
  | [] => 0
  | ['\\'] => 0
  | '\\' :: _ :: rest => livePipes rest
  | c :: rest => (if c = '|' then 1 else 0) + livePipes rest

/-- The other reading of GFM cell boundaries (the one of the reference
implementation): a pipe counts unless the character before it is a backslash.
`prev` is the character before the text. -/
def barePipes (prev : Option Char) : List Char → Nat
  | [] => 0
  | c :: rest => (if c = '|' ∧ prev ≠ some '\\' then 1 else 0) + barePipes (some c) rest

/-- The text of a cell: `\|` stands for `|`, other escapes are left to the inline
parser. -/
def cellText : List Char → List Char
  | [] => []
  | ['\\'] => ['\\']
  | '\\' :: c :: rest => if c = '|' then '|' :: cellText rest else '\\' :: c :: cellText rest
  | c :: rest => c :: cellText rest

end Hongdown.Spec
