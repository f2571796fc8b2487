import Verif.Model.State
import Verif.Model.Escape

/-!
# Model of `escape_text_preserving_source` (src/serializer/inline.rs:289-461)
-/

namespace Hongdown.Model

/-- `char::is_ascii_alphanumeric`. -/
def isAsciiAlnum (c : Char) : Bool := c.isAlphanum

/-- The value of one digit in the given base (`char::to_digit`). -/
def digitVal (base : Nat) (c : Char) : Option Nat :=
  let n := c.toNat
  let d := if 0x30 ≤ n && n ≤ 0x39 then some (n - 0x30)
    else if 0x41 ≤ n && n ≤ 0x5A then some (n - 0x41 + 10)
    else if 0x61 ≤ n && n ≤ 0x7A then some (n - 0x61 + 10)
    else none
  d.filter (· < base)

def digitsVal (base acc : Nat) : List Char → Option Nat
  | [] => some acc
  | c :: cs => match digitVal base c with
    | some d => digitsVal base (acc * base + d) cs
    | none => none

/-- `u32::from_str_radix` / `str::parse` on digit strings without a sign. The bound of
`u32` is not checked here. -/
def parseNat (base : Nat) (s : List Char) : Option Nat :=
  if s = [] then none else digitsVal base 0 s

/-- `char::from_u32`. A number beyond the range of `u32` is beyond that of `char`, too. -/
def charFromNat (n : Nat) : Option Char :=
  if n < 0xD800 ∨ (0xDFFF < n ∧ n < 0x110000) then some (Char.ofNat n) else none

/-- The name or number of an entity: up to 10 alphanumeric or `#` characters, then `;`
(src/serializer/inline.rs:404-419). The argument is the text after `&`. -/
def scanEntity : Nat → List Char → Option (List Char)
  | 0, _ => none
  | _ + 1, [] => none
  | k + 1, c :: cs =>
    if c = ';' then some []
    else if isAsciiAlnum c || c = '#' then (scanEntity k cs).map (c :: ·)
    else none

/-- `decode_html_entity` (src/serializer/inline.rs:425-461). The argument is what stands
between `&` and `;`; it has no `;` and no `&`. The table of named entities is a
parameter which gives a character only for entities that decode to one. -/
def decodeEntity (named : List Char → Option Char) : List Char → Option Char
  | '#' :: 'x' :: hex => (parseNat 16 hex).bind charFromNat
  | '#' :: 'X' :: hex => (parseNat 16 hex).bind charFromNat
  | '#' :: dec => (parseNat 10 dec).bind charFromNat
  | name => named name

/-- `try_parse_html_entity` (src/serializer/inline.rs:399-422). The argument is the source
after `&`. -/
def tryParseEntity (named : List Char → Option Char) (afterAmp : List Char) :
    Option (List Char × Char) :=
  match scanEntity 11 afterAmp with
  | none => none
  | some body => (decodeEntity named body).map fun c => ('&' :: body ++ [';'], c)

/-- `escape::escape_text(&c.to_string())`. -/
def escapeChar (c : Char) : List Char := escapeText [c]

/-- The loop of `escape_text_preserving_source` (src/serializer/inline.rs:304-392) on the
remaining text and source. The first argument bounds the number of steps; every step
removes a character of the text or of the source. -/
def escapeSrcGo (named : List Char → Option Char) : Nat → List Char → List Char → List Char
  | 0, text, _ => text.flatMap escapeChar
  | _ + 1, [], _ => []
  | _ + 1, t :: ts, [] => (t :: ts).flatMap escapeChar
  | k + 1, t :: ts, s :: ss =>
    if s = '\\' ∧ ss ≠ [] then
      if t = '\\' then
        if ss.head? = some '\\' then '\\' :: '\\' :: escapeSrcGo named k ts ss.tail
        else escapeChar t ++ escapeSrcGo named k ts ss
      else if ss.head? = some t then
        (if 1 < (escapeChar t).length && (escapeChar t).head? = some '\\' then ['\\', t]
          else ['\\', '\\', t]) ++ escapeSrcGo named k ts ss.tail
      else escapeChar t ++ escapeSrcGo named k ts (s :: ss)
    else if s = '&' then
      match tryParseEntity named ss with
      | some (entity, decoded) =>
        if decoded = t then entity ++ escapeSrcGo named k ts ((s :: ss).drop entity.length)
        else escapeChar t ++ escapeSrcGo named k ts (s :: ss)
      | none =>
        if s = t then escapeChar t ++ escapeSrcGo named k ts ss
        else escapeSrcGo named k (t :: ts) ss
    else if s = t then escapeChar t ++ escapeSrcGo named k ts ss
    else escapeSrcGo named k (t :: ts) ss

/-- `escape_text_preserving_source` (src/serializer/inline.rs:296-395). In line 332
`escaped_form.len()` counts bytes; an escaped form that starts with a backslash is
longer than one byte exactly when it has more than one character. -/
def escapeTextPreservingSource (named : List Char → Option Char) (text source : List Char) :
    List Char :=
  escapeSrcGo named (text.length + source.length) text source

end Hongdown.Model
