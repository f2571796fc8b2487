import Verif.Spec.Words

/-!
# Order and form of reference definitions

Which number a label has, in which order numbered things are listed, and how a reader of
CommonMark takes a reference definition or the end of an inline link apart.
-/

namespace Hongdown.Spec

/-- The value of a string of decimal digits. -/
def decimal (s : List Char) : Option Nat :=
  if s ≠ [] ∧ ∀ c ∈ s, 48 ≤ c.toNat ∧ c.toNat ≤ 57 then
    some (s.foldl (fun a c => 10 * a + (c.toNat - 48)) 0)
  else none

/-- A 64 bit number, with an optional plus sign. -/
def number64 (s : List Char) : Option Nat :=
  match decimal (if s.head? = some '+' then s.tail else s) with
  | some n => if n < 18446744073709551616 then some n else none
  | none => none

/-- The number of a label such as `12` or `#12`. -/
def labelNumber (label : List Char) : Option Nat :=
  number64 (if label.head? = some '#' then label.tail else label)

/-- `ys` is the order in which `xs` are to be written: with fewer than two numbered ones as
they stand; otherwise those without a number as they stand, and then the numbered ones by
number, ties as they stand. -/
structure IsOutputOrder {α : Type} (num : α → Option Nat) (xs ys : List α) : Prop where
  perm : ys.Perm xs
  few : (xs.filter fun x => (num x).isSome).length < 2 → ys = xs
  many : 2 ≤ (xs.filter fun x => (num x).isSome).length → ∃ bs,
    ys = (xs.filter fun x => (num x).isNone) ++ bs ∧
    bs.Pairwise (fun x y => ∃ m n, num x = some m ∧ num y = some n ∧ m ≤ n) ∧
    ∀ k, (bs.filter fun x => num x = some k) = xs.filter fun x => num x = some k

/-- The text that separates what was written from a blank line on. -/
structure IsGap (out gap : List Char) : Prop where
  blank : ['\n', '\n'] <:+ out ++ gap
  least : ∀ g, ['\n', '\n'] <:+ out ++ g → (∀ c ∈ g, c = '\n') → gap <+: g
  newlines : ∀ c ∈ gap, c = '\n'

/-! ### Reading a link target -/

/-- ASCII control characters and spaces end a link destination. -/
def endsDest (c : Char) : Bool := c.toNat ≤ 32 || c.toNat = 127

/-- A link destination without angle brackets; `d` parentheses are open. -/
def bareDest : Nat → List Char → Option (List Char × List Char)
  | 0, [] => some ([], [])
  | _ + 1, [] => none
  | d, '\\' :: c :: cs =>
    if isAsciiPunct c then (bareDest d cs).map fun r => (c :: r.1, r.2)
    else if endsDest c then if d = 0 then some (['\\'], c :: cs) else none
    else (bareDest d cs).map fun r => ('\\' :: c :: r.1, r.2)
  | d, c :: cs =>
    if endsDest c then if d = 0 then some ([], c :: cs) else none
    else if c = '(' then (bareDest (d + 1) cs).map fun r => (c :: r.1, r.2)
    else if c = ')' then
      if d = 0 then some ([], c :: cs) else (bareDest (d - 1) cs).map fun r => (c :: r.1, r.2)
    else (bareDest d cs).map fun r => (c :: r.1, r.2)

/-- A link destination between angle brackets, after the first one. -/
def angleDest : List Char → Option (List Char × List Char)
  | [] => none
  | '\\' :: c :: cs =>
    if isAsciiPunct c then (angleDest cs).map fun r => (c :: r.1, r.2)
    else (angleDest (c :: cs)).map fun r => ('\\' :: r.1, r.2)
  | c :: cs =>
    if c = '>' then some ([], cs)
    else if c = '<' ∨ c = '\n' then none
    else (angleDest cs).map fun r => (c :: r.1, r.2)

/-- A link destination and what comes after it. A bare one is not empty. -/
def readDest (s : List Char) : Option (List Char × List Char) :=
  if s.head? = some '<' then angleDest s.tail
  else match bareDest 0 s with
    | some (u, rest) => if u = [] then none else some (u, rest)
    | none => none

/-- The rest of a title in double quotes, after the first one. -/
def quotedTitle : List Char → Option (List Char × List Char)
  | [] => none
  | '\\' :: c :: cs =>
    if isAsciiPunct c then (quotedTitle cs).map fun r => (c :: r.1, r.2)
    else (quotedTitle (c :: cs)).map fun r => ('\\' :: r.1, r.2)
  | c :: cs =>
    if c = '"' then some ([], cs) else (quotedTitle cs).map fun r => (c :: r.1, r.2)

/-- A destination, and a title in double quotes if a space and a quote follow. Titles in
other quotes do not occur here. Character references are not decoded. -/
def readTarget (s : List Char) : Option ((List Char × List Char) × List Char) :=
  match readDest s with
  | none => none
  | some (u, rest) =>
    if rest.head? = some ' ' ∧ (rest.dropWhile (· = ' ')).head? = some '"' then
      (quotedTitle (rest.dropWhile (· = ' ')).tail).map fun r => ((u, r.1), r.2)
    else some ((u, []), rest)

/-- The label of a reference definition, after the first bracket: no brackets inside unless
after a backslash. -/
def readLabel : List Char → Option (List Char × List Char)
  | [] => none
  | '\\' :: c :: cs => (readLabel cs).map fun r => ('\\' :: c :: r.1, r.2)
  | c :: cs =>
    if c = ']' then some ([], cs)
    else if c = '[' then none
    else (readLabel cs).map fun r => (c :: r.1, r.2)

/-- A reference definition on one line: label, destination and title. The label needs a
character that is not whitespace, and nothing may follow but spaces. -/
def readDefinition (line : List Char) : Option (List Char × List Char × List Char) :=
  match line with
  | '[' :: rest =>
    match readLabel rest with
    | some (label, ':' :: rest) =>
      if label.all isWs then none
      else match readTarget (rest.dropWhile (· = ' ')) with
        | some ((url, title), rest) =>
          if rest.all (· = ' ') then some (label, url, title) else none
        | none => none
    | _ => none
  | _ => none

/-- The target of an inline link from its opening parenthesis on, and what comes after. -/
def readInlineTarget (s : List Char) : Option ((List Char × List Char) × List Char) :=
  match s with
  | '(' :: rest =>
    match rest.dropWhile (· = ' ') with
    | ')' :: rest => some (([], []), rest)
    | rest => match readTarget rest with
      | some (t, rest) => match rest.dropWhile (· = ' ') with
        | ')' :: rest => some (t, rest)
        | _ => none
      | none => none
  | _ => none

/-- Parentheses are balanced, with `d` open before. -/
def balanced : Nat → List Char → Bool
  | d, [] => d = 0
  | d, c :: cs =>
    if c = '(' then balanced (d + 1) cs
    else if c = ')' then d ≠ 0 && balanced (d - 1) cs
    else balanced d cs

/-- A destination that needs no angle brackets and no escapes. -/
def plainUrl (u : List Char) : Bool :=
  u ≠ [] && u.head? ≠ some '<' && u.all (fun c => !endsDest c && c ≠ '\\') && balanced 0 u

/-- A title that needs no escapes. -/
def plainTitle (t : List Char) : Bool := t.all fun c => c ≠ '"' && c ≠ '\\' && c ≠ '\n'

/-- A label that needs no escapes. -/
def plainLabel (l : List Char) : Bool :=
  !l.all isWs && l.all fun c => c ≠ '[' && c ≠ ']' && c ≠ '\\' && c ≠ '\n' && c ≠ '\x00'

/-! ### Footnotes -/

/-- Lines of words after the prefix `fp` (first line) and `pfx` (others) fill the width
`lw`: a line fits unless it is a single word, and the first word of the next line would
not have fitted. -/
def Filled (w : List Char → Nat) (lw : Nat) (fp pfx : List Char) : List (List (List Char)) → Prop
  | [] => True
  | [l] => l.length = 1 ∨ w (fp ++ joinWith [' '] l) ≤ lw
  | l :: l' :: rest =>
    (l.length = 1 ∨ w (fp ++ joinWith [' '] l) ≤ lw) ∧
      lw < w (fp ++ joinWith [' '] l) + 1 + w (l'.headD []) ∧ Filled w lw pfx pfx (l' :: rest)

/-- Take the content of a footnote definition from its lines: the first line follows the
label, blank lines stay, other lines lose four columns of indentation. -/
def footnoteBody (name : List Char) (ls : List (List Char)) : Option (List (List Char)) :=
  match ls with
  | [] => none
  | l :: rest =>
    let label := ['[', '^'] ++ name ++ [']', ':', ' ']
    if label.isPrefixOf l then
      (rest.mapM fun l =>
        if l = [] then some []
        else if (spaces 4).isPrefixOf l then some (l.drop 4) else none).map
          (l.drop label.length :: ·)
    else none

/-- After a blank line, a line with four spaces before its text is indented code. -/
def isIndentedCode (l : List Char) : Bool := (spaces 4).isPrefixOf l && !l.all isWs

end Hongdown.Spec
