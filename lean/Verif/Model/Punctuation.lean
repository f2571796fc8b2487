import Verif.Model.Uni

/-!
# Model of `src/serializer/punctuation.rs`
-/

namespace Hongdown.Model

/-! Constants (src/serializer/punctuation.rs:14-33). -/
def ldq : Char := '“'
def rdq : Char := '”'
def lsq : Char := '‘'
def rsq : Char := '’'
def ellipsisC : Char := '…'
def enDashC : Char := '–'
def emDashC : Char := '—'

/-- `transform_ellipsis` (src/serializer/punctuation.rs:118-144). The index loop is
recursion on the remaining characters. -/
def transformEllipsis : List Char → List Char
  | '.' :: '.' :: '.' :: '.' :: rest => ellipsisC :: '.' :: transformEllipsis rest
  | '.' :: '.' :: '.' :: rest => ellipsisC :: transformEllipsis rest
  | c :: rest => c :: transformEllipsis rest
  | [] => []

/-- A loop over the characters of a text in which the new character depends on a
state, the previous character of the original text, the character and the rest of
the original text. The three quote transformations have this form. -/
def ctxMap {σ : Type} (f : σ → Option Char → Char → List Char → Char × σ) (st : σ)
    (prev : Option Char) : List Char → List Char
  | [] => []
  | c :: cs => (f st prev c cs).1 :: ctxMap f (f st prev c cs).2 (some c) cs

/-- `should_be_opening_quote` (src/serializer/punctuation.rs:438-487). -/
def shouldBeOpening (prev next : Option Char) (expectingOpen : Bool) : Bool :=
  let prevOpen := match prev with
    | none => true
    | some c => isWs c || c = '(' || c = '[' || c = '{' || c = ldq || c = lsq
  let nextClose := match next with
    | none => true
    | some c => isWs c || c = '.' || c = ',' || c = ';' || c = ':' || c = '!' || c = '?' ||
        c = ')' || c = ']' || c = '}'
  if prevOpen && !nextClose then true
  else if nextClose && !prevOpen then false
  else expectingOpen

/-- One step of `transform_double_quotes` (src/serializer/punctuation.rs:152-167); the
state is `expecting_open`. -/
def doubleStep (expectingOpen : Bool) (prev : Option Char) (c : Char) (rest : List Char) :
    Char × Bool :=
  if c = '"' then
    if shouldBeOpening prev rest.head? expectingOpen then (ldq, false) else (rdq, true)
  else (c, expectingOpen)

/-- `transform_double_quotes` (src/serializer/punctuation.rs:147-170). -/
def transformDoubleQuotes (s : List Char) : List Char := ctxMap doubleStep true none s

/-- The test "`s` followed by a non-letter", which the code repeats for each kind of
possessive (for instance src/serializer/punctuation.rs:215-219). -/
def possessiveAhead (u : Uni) (rest : List Char) : Bool :=
  (rest.head? = some 's' || rest.head? = some 'S') &&
    match rest.tail.head? with
    | none => true
    | some c => !u.alphabetic c

/-- Whether `transform_single_quotes` leaves a straight quote for the apostrophe pass
(the five early `continue`s, src/serializer/punctuation.rs:191-246). -/
def singleKeeps (u : Uni) (expectingOpen : Bool) (prev : Option Char) (rest : List Char) : Bool :=
  let prevLetter := prev.any u.alphabetic
  let nextLetter := rest.head?.any u.alphabetic
  (prevLetter && nextLetter) ||
  (expectingOpen && prevLetter &&
    (rest.head? = none || rest.head?.any fun c => isWs c || isAsciiPunct c)) ||
  ((prev.any fun c => c = ']' || c = ')' || c = '}') && possessiveAhead u rest) ||
  (prev.any isAsciiDigit && possessiveAhead u rest) ||
  (prev = none && possessiveAhead u rest)

/-- One step of `transform_single_quotes` (src/serializer/punctuation.rs:181-288). -/
def singleStep (u : Uni) (expectingOpen : Bool) (prev : Option Char) (c : Char)
    (rest : List Char) : Char × Bool :=
  if c = '\'' then
    if singleKeeps u expectingOpen prev rest then (c, expectingOpen)
    else if rest.head?.any isAsciiDigit then (rsq, expectingOpen)
    else if (prev = none || prev.any isWs) && rest.head?.any u.alphabetic then
      if (rest.take 50).any (· = '\'') then (lsq, false) else (rsq, expectingOpen)
    else if shouldBeOpening prev rest.head? expectingOpen then (lsq, false)
    else (rsq, true)
  else (c, expectingOpen)

/-- `transform_single_quotes` (src/serializer/punctuation.rs:176-291). -/
def transformSingleQuotes (u : Uni) (s : List Char) : List Char :=
  ctxMap (singleStep u) true none s

/-- One step of `transform_apostrophes` (src/serializer/punctuation.rs:302-387); the
state is `open_single_quote_count`. -/
def apostropheStep (u : Uni) (count : Nat) (prev : Option Char) (c : Char) (rest : List Char) :
    Char × Nat :=
  if c = '\'' then
    let prevAlnum := prev.any u.alphanumeric
    let nextAlnum := rest.head?.any u.alphanumeric
    let prevSpace := prev = none || prev.any isWs
    let nextSpace := rest.head? = none || rest.head?.any isWs
    if prevAlnum && nextAlnum then (rsq, count)
    else if prevAlnum && possessiveAhead u rest then (rsq, count)
    else if (prev.any fun c => c = ']' || c = ')' || c = '}') && possessiveAhead u rest then
      (rsq, count)
    else if prev = none && possessiveAhead u rest then (rsq, count)
    else if prevSpace && nextAlnum then (c, count + 1)
    else if prevAlnum && nextSpace then
      if count > 0 then (c, count - 1) else (rsq, count)
    else (c, count)
  else (c, count)

/-- `transform_apostrophes` (src/serializer/punctuation.rs:295-390). -/
def transformApostrophes (u : Uni) (s : List Char) : List Char :=
  ctxMap (apostropheStep u) 0 none s

/-- The loop of `transform_dashes` (src/serializer/punctuation.rs:406-432). The jump
`i += pattern_chars.len()` is the counter `skip` of characters to pass over. -/
def dashGo (pat : List Char) (rep : Char) : Nat → Option Char → List Char → List Char
  | _, _, [] => []
  | skip + 1, _, c :: cs => dashGo pat rep skip (some c) cs
  | 0, prev, c :: cs =>
    if pat.isPrefixOf (c :: cs) then
      if pat.length = 1 then
        let prevSpace := prev = none || prev.any isWs
        let nextSpace := cs = [] || cs.head?.any isWs
        if prevSpace && nextSpace then rep :: dashGo pat rep (pat.length - 1) (some c) cs
        else c :: dashGo pat rep 0 (some c) cs
      else rep :: dashGo pat rep (pat.length - 1) (some c) cs
    else c :: dashGo pat rep 0 (some c) cs

/-- `transform_dashes` (src/serializer/punctuation.rs:394-435). -/
def transformDashes (pat : List Char) (rep : Char) (s : List Char) : List Char :=
  if pat = [] then s else dashGo pat rep 0 none s

/-- The punctuation part of `Options` (src/lib.rs:60-150); a dash setting is `none`
when disabled (`DashSetting`, src/config.rs:832-840). -/
structure PunctOpts where
  curlyDouble : Bool
  curlySingle : Bool
  curlyApostrophes : Bool
  ellipsis : Bool
  enDash : Option (List Char)
  emDash : Option (List Char)
deriving DecidableEq, Repr

/-- `transform_punctuation` (src/serializer/punctuation.rs:79-115). -/
def transformPunctuation (u : Uni) (o : PunctOpts) (s : List Char) : List Char :=
  let s := match o.emDash with | some p => transformDashes p emDashC s | none => s
  let s := match o.enDash with | some p => transformDashes p enDashC s | none => s
  let s := if o.ellipsis then transformEllipsis s else s
  let s := if o.curlyDouble then transformDoubleQuotes s else s
  let s := if o.curlySingle then transformSingleQuotes u s else s
  if o.curlyApostrophes then transformApostrophes u s else s

/-- `validate_dash_settings` (src/serializer/punctuation.rs:59-69): `some p` is the
error `ConflictingDashPatterns(p)`. -/
def validateDashSettings (o : PunctOpts) : Option (List Char) :=
  match o.enDash, o.emDash with
  | some en, some em => if en = em then some en else none
  | _, _ => none

end Hongdown.Model
