import Verif.Spec.Inline

/-!
# The text of a piece of Markdown: backslash escapes and character references

CommonMark 2.4 and 2.5. The table of named references is a parameter.
-/

namespace Hongdown.Spec

/-- The value of a digit below 16. -/
def hexDigit (c : Char) : Option Nat :=
  if '0' ≤ c ∧ c ≤ '9' then some (c.toNat - 48)
  else if 'a' ≤ c ∧ c ≤ 'f' then some (c.toNat - 87)
  else if 'A' ≤ c ∧ c ≤ 'F' then some (c.toNat - 55)
  else none

/-- A number in a base up to 16. -/
def readNumber (base : Nat) (s : List Char) : Option Nat :=
  s.foldl (fun a c => a.bind fun a => (hexDigit c).bind fun d => if d < base then some (a * base + d) else none)
    (some 0)

/-- The character with a number; invalid ones and 0 stand for U+FFFD. -/
def scalar (n : Nat) : Char :=
  if n ≠ 0 ∧ (n < 0xD800 ∨ 0xDFFF < n ∧ n < 0x110000) then Char.ofNat n else '�'

/-- What stands between `&` and `;`: up to six hexadecimal or seven decimal digits, or a name. -/
def referenceChar (named : List Char → Option Char) : List Char → Option Char
  | '#' :: 'x' :: s => if s ≠ [] ∧ s.length ≤ 6 then (readNumber 16 s).map scalar else none
  | '#' :: 'X' :: s => if s ≠ [] ∧ s.length ≤ 6 then (readNumber 16 s).map scalar else none
  | '#' :: s => if s ≠ [] ∧ s.length ≤ 7 then (readNumber 10 s).map scalar else none
  | s => named s

/-- A character reference at the front, after its `&`: the character and the number of
characters it takes. -/
def referenceAt (named : List Char → Option Char) (s : List Char) : Option (Char × Nat) :=
  if ';' ∈ s then
    (referenceChar named (s.takeWhile (· ≠ ';'))).map fun c => (c, (s.takeWhile (· ≠ ';')).length + 1)
  else none

/-- The text that is meant; `skip` characters still belong to what was read before. -/
def readText (named : List Char → Option Char) : Nat → List Char → List Char
  | _, [] => []
  | skip + 1, _ :: s => readText named skip s
  | 0, c :: s =>
    if c = '\\' then
      match s with
      | [] => ['\\']
      | d :: _ => if d ∈ asciiPunctuation then d :: readText named 1 s else '\\' :: readText named 0 s
    else if c = '&' then
      match referenceAt named s with
      | some (d, n) => d :: readText named n s
      | none => '&' :: readText named 0 s
    else c :: readText named 0 s

/-- Parts of a text: a character as it is, a backslash before a character, a character reference
(with what stands between `&` and `;`). -/
inductive Piece where
  | char (c : Char)
  | escaped (c : Char)
  | reference (body : List Char) (c : Char)
  deriving DecidableEq

/-- The source of a part. -/
def Piece.source : Piece → List Char
  | .char c => [c]
  | .escaped c => ['\\', c]
  | .reference body _ => '&' :: body ++ [';']

/-- The source of a text. -/
def piecesSource (ps : List Piece) : List Char := ps.flatMap Piece.source

/-- The character that is meant. -/
def Piece.means : Piece → Char
  | .char c => c
  | .escaped c => c
  | .reference _ c => c

/-- Letters, digits and `#`. -/
def inReference (c : Char) : Bool := c.isAlphanum || c = '#'

/-- The parts are what the source reads as: a single `&` does not begin a reference, and a single
backslash does not escape what comes after it. -/
def PiecesOk (named : List Char → Option Char) : List Piece → Prop
  | [] => True
  | p :: ps =>
    (match p with
      | .char c =>
        (c = '&' → ((piecesSource ps).dropWhile inReference).head? ≠ some ';') ∧
        (c = '\\' → ∀ d, (piecesSource ps).head? = some d → d ∉ asciiPunctuation)
      | .escaped c => c ∈ asciiPunctuation
      | .reference body c => ';' ∉ body ∧ referenceChar named body = some c) ∧ PiecesOk named ps

/-- Names are letters and digits. -/
def NamesOk (named : List Char → Option Char) : Prop :=
  ∀ s c, named s = some c → s ≠ [] ∧ ∀ c ∈ s, c.isAlphanum = true

/-- What the code handles: the escapes it writes itself, and references that are short and stand
for a valid character. -/
def Piece.simple : Piece → Prop
  | .char _ => True
  | .escaped c => c = '*' ∨ c = '_' ∨ c = '\\' ∨ c = '`'
  | .reference body c => body.length ≤ 10 ∧ c ≠ '�'

end Hongdown.Spec
