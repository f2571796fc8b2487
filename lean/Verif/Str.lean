/-!
# Strings

Rust `&str`/`String` values are modelled as `List Char`. This file has the parts
of Rust's standard library which the formatter uses.
-/

namespace Hongdown

/-- `char::is_whitespace`: the Unicode `White_Space` property. -/
def isWs (c : Char) : Bool :=
  let n := c.toNat
  (9 ≤ n && n ≤ 13) || n == 32 || n == 0x85 || n == 0xA0 || n == 0x1680 ||
  (0x2000 ≤ n && n ≤ 0x200A) || n == 0x2028 || n == 0x2029 || n == 0x202F ||
  n == 0x205F || n == 0x3000

/-- `char::is_ascii_punctuation`: U+0021..2F, 3A..40, 5B..60, 7B..7E. -/
def isAsciiPunct (c : Char) : Bool :=
  let n := c.toNat
  (0x21 ≤ n && n ≤ 0x2F) || (0x3A ≤ n && n ≤ 0x40) ||
  (0x5B ≤ n && n ≤ 0x60) || (0x7B ≤ n && n ≤ 0x7E)

/-- `char::is_ascii_digit`. -/
def isAsciiDigit (c : Char) : Bool := 0x30 ≤ c.toNat && c.toNat ≤ 0x39

/-- `char::is_ascii_graphic`: U+0021..7E. -/
def isAsciiGraphic (c : Char) : Bool := 0x21 ≤ c.toNat && c.toNat ≤ 0x7E

/-- `str::trim_start`. -/
def trimStart (s : List Char) : List Char := s.dropWhile isWs

/-- `str::trim_end`. -/
def trimEnd (s : List Char) : List Char := (s.reverse.dropWhile isWs).reverse

/-- `str::trim`. -/
def trim (s : List Char) : List Char := trimEnd (trimStart s)

/-- `str::split(c)` for a character `c`: always at least one part. -/
def splitOn (c : Char) : List Char → List (List Char)
  | [] => [[]]
  | x :: xs =>
    if x = c then [] :: splitOn c xs
    else match splitOn c xs with
      | [] => [[x]]
      | p :: ps => (x :: p) :: ps

/-- `[a, b, c].join(sep)`. -/
def joinWith (sep : List Char) : List (List Char) → List Char
  | [] => []
  | [a] => a
  | a :: b :: rest => a ++ sep ++ joinWith sep (b :: rest)

/-- Drop one trailing carriage return (part of `str::lines`). -/
def stripCR (s : List Char) : List Char :=
  if s.getLast? = some '\r' then s.dropLast else s

/-- `str::lines`: split at `\n`, a final empty part is dropped, and a `\r`
directly before the `\n` belongs to the line ending. A last line that has no
`\n` keeps its `\r`. -/
def linesGo : List Char → List Char → List (List Char)
  | acc, [] => if acc = [] then [] else [acc.reverse]
  | acc, c :: cs =>
    if c = '\n' then stripCR acc.reverse :: linesGo [] cs
    else linesGo (c :: acc) cs

def lines (s : List Char) : List (List Char) := linesGo [] s

/-- `str::split_whitespace`. -/
def wordsGo : List Char → List Char → List (List Char)
  | acc, [] => if acc = [] then [] else [acc.reverse]
  | acc, c :: cs =>
    if isWs c then
      if acc = [] then wordsGo [] cs else acc.reverse :: wordsGo [] cs
    else wordsGo (c :: acc) cs

def splitWs (s : List Char) : List (List Char) := wordsGo [] s

/-- `s.starts_with(p)` followed by removing `p`: `str::strip_prefix`. -/
def stripPrefix? : List Char → List Char → Option (List Char)
  | [], s => some s
  | _ :: _, [] => none
  | p :: ps, c :: cs => if p = c then stripPrefix? ps cs else none

/-- `str::strip_suffix`. -/
def stripSuffix? (p s : List Char) : Option (List Char) :=
  (stripPrefix? p.reverse s.reverse).map List.reverse

/-- `c.len_utf8()`. -/
def utf8Len (c : Char) : Nat :=
  if c.toNat < 0x80 then 1 else if c.toNat < 0x800 then 2
  else if c.toNat < 0x10000 then 3 else 4

/-- `s.len()`: the length in bytes. -/
def byteLen (s : List Char) : Nat := (s.map utf8Len).sum

/-- `" ".repeat(n)`. -/
def spaces (n : Nat) : List Char := List.replicate n ' '

end Hongdown
