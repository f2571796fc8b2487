import Verif.Str

/-!
# Model of `src/serializer/escape.rs`
-/

namespace Hongdown.Model

/-- The body of `normalize_whitespace` (src/serializer/escape.rs:4-6). -/
def normalizeWhitespace (s : List Char) : List Char :=
  joinWith [' '] (splitWs s)

/-- The decision of `escape_text` (src/serializer/escape.rs:15-68) for the
character `c` whose neighbours are `prev` and `next` (`none` at the ends of the
text): whether a backslash is put before it. -/
def needsEscape (prev : Option Char) (c : Char) (next : Option Char) : Bool :=
  if c = '*' then true
  else if c = '_' then true
  else if c = '[' then
    let nextIsBracket := next = some '['
    let atEnd := next = none
    !(nextIsBracket || atEnd)
  else if c = ']' then
    let prevIsBracket := prev = some ']'
    let atStart := prev = none
    let atEnd := next = none
    let nextCouldContinueLink := next = some '(' || next = some '['
    !(prevIsBracket || atStart || atEnd || !nextCouldContinueLink)
  else if c = '\\' then true
  else if c = '`' then true
  else false

/-- The loop of `escape_text` (src/serializer/escape.rs:14-69). The index `i`
is replaced by the previous character and the remaining list. -/
def escapeTextGo (prev : Option Char) : List Char → List Char
  | [] => []
  | c :: cs =>
    if needsEscape prev c cs.head? then '\\' :: c :: escapeTextGo (some c) cs
    else c :: escapeTextGo (some c) cs

/-- `escape_text` (src/serializer/escape.rs:10-71). -/
def escapeText (s : List Char) : List Char := escapeTextGo none s

/-- The counting loop of `format_code_span` (src/serializer/escape.rs:79-88):
the longest run of backticks, `cur` being the current run and `mx` the maximum
so far. -/
def maxBackticksGo (mx cur : Nat) : List Char → Nat
  | [] => mx
  | c :: cs =>
    if c = '`' then maxBackticksGo (max mx (cur + 1)) (cur + 1) cs
    else maxBackticksGo mx 0 cs

/-- `format_code_span` (src/serializer/escape.rs:77-116). -/
def formatCodeSpan (content : List Char) : List Char :=
  let m := maxBackticksGo 0 0 content
  let n := if m > 0 then m + 1 else 1
  let delim := List.replicate n '`'
  let needsSpace :=
    if content = [] then false
    else content.head? = some '`' || content.getLast? = some '`'
  if needsSpace then delim ++ [' '] ++ content ++ [' '] ++ delim
  else delim ++ content ++ delim

/-- `is_valid_code_span` (src/serializer/escape.rs:121-137). `source.len()` is
the length in bytes. -/
def isValidCodeSpan (source : List Char) : Bool :=
  if source = [] then false
  else
    let leading := (source.takeWhile (· = '`')).length
    if leading = 0 then false
    else
      let trailing := (source.reverse.takeWhile (· = '`')).length
      leading = trailing && leading ≤ byteLen source / 2

/-- `escape_table_cell` (src/serializer/escape.rs:141-164). The index loop is
recursion on the remaining characters. -/
def escapeTableCell : List Char → List Char
  | [] => []
  | [c] => if c = '|' then ['\\', '|'] else [c]
  | c :: d :: rest =>
    if c = '\\' then c :: d :: escapeTableCell rest
    else if c = '|' then '\\' :: '|' :: escapeTableCell (d :: rest)
    else c :: escapeTableCell (d :: rest)

end Hongdown.Model
