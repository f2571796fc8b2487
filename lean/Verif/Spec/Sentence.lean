import Verif.Spec.Heading

/-!
# Sentence case of whole headings

A heading is cut at its backquotes; every second piece is code. The quotation marks of the others
are curled, then quotations are told from text, and text is cut into words.
-/

namespace Hongdown.Spec
open Model

/-! ### Nouns of several words -/

/-- A character of a text, or one of the nouns of several words that were found in it. -/
inductive Atom where
  | char (c : Char)
  | noun (i : Nat)

/-- A noun that was found: its listed spelling, how the text has it, and the possessive ending after it. -/
structure Found where
  noun : List Char
  source : List Char
  own : List Char

/-- The text that an atom stands for. -/
def Atom.source (found : List Found) : Atom → List Char
  | .char c => [c]
  | .noun i => match found[i]? with
    | some f => f.source ++ f.own
    | none => []

/-- What becomes of an atom that is kept. -/
def Atom.result (found : List Found) : Atom → List Char
  | .char c => [c]
  | .noun i => match found[i]? with
    | some f => f.noun ++ f.own
    | none => []

/-- A listed noun of several words that is not made a common noun. -/
def PhraseNoun (u : Uni) (n : Nouns) (p : List Char) : Prop :=
  ((∃ b ∈ n.builtin, b.1 = p) ∨ p ∈ n.proper) ∧ ' ' ∈ p ∧ ∀ c ∈ n.common, ¬ SameNoun u c p

/-- Apostrophes made straight. -/
def straightened (s : List Char) : List Char := s.map fun c => if c = '’' then '\'' else c

/-- The text differs from the noun only in case and in the style of apostrophes. -/
def IsPhrase (u : Uni) (noun text : List Char) : Prop :=
  straightened (u.strLower text) = straightened (u.strLower (u.strLower noun)) ∧
  text.length = (u.strLower noun).length

/-- There is no letter or digit at the edge of a noun. -/
def Edge (u : Uni) (c : Option Char) : Prop := ∀ d, c = some d → u.alphanumeric d = false

/-- The same for atoms. -/
def AtomEdge (u : Uni) (a : Option Atom) : Prop := ∀ d, a = some (.char d) → u.alphanumeric d = false

/-- The nouns of several words in the text `s`. What is found is a noun that stands apart from
letters and digits, with its possessive ending. Every other place where a noun stands apart overlaps
one that was found and is not shorter. -/
structure Phrases (u : Uni) (n : Nouns) (found : List Found) (atoms : List Atom) (s : List Char) : Prop where
  source : atoms.flatMap (Atom.source found) = s
  sound : ∀ a i b, atoms = a ++ .noun i :: b → ∃ f, found[i]? = some f ∧ PhraseNoun u n f.noun ∧
    IsPhrase u f.noun f.source ∧ AtomEdge u a.getLast? ∧
    (f.own = ['\'', 's'] ∨ f.own = ['’', 's'] ∨ f.own = [] ∧ AtomEdge u b.head? ∧
      ∀ q ∈ ['\'', '’'], ¬ [.char q, .char 's'] <+: b)
  complete : ∀ p x m y, PhraseNoun u n p → s = x ++ m ++ y → IsPhrase u p m → Edge u x.getLast? → Edge u y.head? →
    ∃ a i b f, atoms = a ++ .noun i :: b ∧ found[i]? = some f ∧ byteLen p ≤ byteLen f.noun ∧
      (a.flatMap (Atom.source found)).length < x.length + m.length ∧
      x.length < (a.flatMap (Atom.source found)).length + (f.source ++ f.own).length

/-! ### Text -/

/-- Colon, semicolon or dash. -/
def Delimiter (c : Char) : Prop := c ∈ [':', ';', '—', '–']

/-- A character between words, or a word and what becomes of it. -/
inductive Bit where
  | sep (c : Char)
  | word (w : List Atom) (out : List Char)

def Bit.source : Bit → List Atom
  | .sep c => [.char c]
  | .word w _ => w

def Bit.result : Bit → List Char
  | .sep c => [c]
  | .word _ out => out

/-- There is no word. -/
def Wordless (bits : List Bit) : Prop := ∀ w out, .word w out ∉ bits

/-- The bits of a text: separators are white space or delimiters, words have neither, and each
goes up to a separator. The characters of a noun of several words do not separate. -/
structure IsBits (bits : List Bit) (s : List Atom) : Prop where
  source : bits.flatMap Bit.source = s
  sep : ∀ c, .sep c ∈ bits → isWs c = true ∨ Delimiter c
  word : ∀ w out, .word w out ∈ bits → w ≠ [] ∧ ∀ c, .char c ∈ w → isWs c = false ∧ ¬ Delimiter c
  apart : ∀ x w out w' out' y, bits ≠ x ++ .word w out :: .word w' out' :: y

/-- The word with `a` before it and `b` after it can start with a capital: it is the first word,
or it is the next word after a delimiter, started with a capital and has no delimiter directly
after it. -/
def Starts (u : Uni) (first : Bool) (a : List Bit) (w : List Atom) (b : List Bit) : Prop :=
  (first = true ∧ Wordless a) ∨
  ((∃ x c y, a = x ++ .sep c :: y ∧ Delimiter c ∧ Wordless y) ∧
    (∀ c, b.head? = some (.sep c) → ¬ Delimiter c) ∧ ∃ c, w.head? = some (.char c) ∧ u.uppercase c = true)

/-- The rules for words with or without hyphens and slashes. -/
def WordRule (u : Uni) (n : Nouns) (first : Bool) (w out : List Char) : Prop :=
  ('-' ∉ w → '/' ∉ w → WordOk u n first w out) ∧
  ('-' ∈ w → CompoundOk u n first '-' w out) ∧
  ('-' ∉ w → '/' ∈ w → CompoundOk u n first '/' w out)

/-- There is a noun of several words among the atoms. -/
def HasNoun (w : List Atom) : Prop := ∃ i, .noun i ∈ w

/-- The rule for a word with a noun in it and with hyphens or slashes, `sep`: parts with a noun are
kept, the others are treated as words; only the first part can be the first word. -/
def PartsRule (u : Uni) (n : Nouns) (found : List Found) (first : Bool) (sep : Char) (w : List Atom) (out : List Char) : Prop :=
  ∃ parts : List (List Atom × List Char),
    w = ((parts.map (·.1)).intersperse [.char sep]).flatten ∧ out = joinWith [sep] (parts.map (·.2)) ∧
    ∀ i part o, parts[i]? = some (part, o) → .char sep ∉ part ∧
      (HasNoun part → o = part.flatMap (Atom.result found)) ∧ (part = [] → o = []) ∧
      ∀ c cs, part = (c :: cs).map .char → WordOk u n (first && i == 0) (c :: cs) o

/-- The rules for words: a word with a noun of several words in it is kept, but parts of it may not
be. -/
structure AtomRule (u : Uni) (n : Nouns) (found : List Found) (first : Bool) (w : List Atom) (out : List Char) : Prop where
  plain : ∀ cs, w = cs.map .char → WordRule u n first cs out
  kept : HasNoun w → .char '-' ∉ w → .char '/' ∉ w → out = w.flatMap (Atom.result found)
  hyphen : HasNoun w → .char '-' ∈ w → PartsRule u n found first '-' w out
  slash : HasNoun w → .char '-' ∉ w → .char '/' ∈ w → PartsRule u n found first '/' w out

/-- The text `s` becomes `out`, word by word. -/
def Recased (u : Uni) (n : Nouns) (first : Bool) (s out : List Char) : Prop :=
  ∃ found atoms bits, Phrases u n found atoms s ∧ IsBits bits atoms ∧ bits.flatMap Bit.result = out ∧
    ∀ a w o b, bits = a ++ .word w o :: b → ∃ f, (f = true ↔ Starts u first a w b) ∧ AtomRule u n found f w o

/-! ### Quotations -/

/-- A text or the content of a quotation in double or single marks. -/
inductive Stretch where
  | text (s : List Char)
  | quote (double : Bool) (s : List Char)

/-- The opening mark. -/
def opening (double : Bool) : Char := if double then '“' else '‘'

/-- The closing mark. -/
def closing (double : Bool) : Char := if double then '”' else '’'

/-- Text is up to the next opening mark; a quotation is up to the next closing mark of its kind; if
there is none the rest is text. -/
inductive Stretches : List Char → List Stretch → Prop
  | nil : Stretches [] []
  | text (s rest : List Char) (ps : List Stretch) : s ≠ [] → '“' ∉ s → '‘' ∉ s →
      (rest = [] ∨ ∃ d r, rest = opening d :: r) → Stretches rest ps → Stretches (s ++ rest) (.text s :: ps)
  | quote (d : Bool) (s rest : List Char) (ps : List Stretch) : closing d ∉ s → Stretches rest ps →
      Stretches (opening d :: s ++ closing d :: rest) (.quote d s :: ps)
  | unclosed (d : Bool) (rest : List Char) : closing d ∉ rest →
      Stretches (opening d :: rest) [.text (opening d :: rest)]

/-- The text has a word. -/
def HasWord (s : List Char) : Prop := ∃ c ∈ s, isWs c = false ∧ ¬ Delimiter c

/-- What becomes of texts and quotations, by the rules `R` and `Q`. Text can have the first word if
none of the texts before it has a word and, in a quotation, there is none in it so far. -/
structure StretchesOk (R : Bool → List Char → List Char → Prop) (Q : List Char → List Char → Prop)
    (quoted first : Bool) (ps : List (Stretch × List Char)) : Prop where
  text : ∀ a s o b, ps = a ++ (.text s, o) :: b →
    ∃ f, (f = true ↔ first = true ∧ (∀ t x, (.text t, x) ∈ a → ¬ HasWord t) ∧
      (quoted = true → ∀ d t x, (.quote d t, x) ∉ a)) ∧ R f s o
  quote : ∀ d s o, (.quote d s, o) ∈ ps → ∃ o', o = opening d :: o' ++ [closing d] ∧ Q s o'

/-- What becomes of a quotation: if its first letter is a capital it is treated like a heading of its
own, otherwise it stays. -/
def Quoted (u : Uni) (R : Bool → List Char → List Char → Prop) (Q : List Char → List Char → Prop)
    (s out : List Char) : Prop :=
  ((∀ c, s.find? u.alphabetic = some c → u.uppercase c = false) ∧ out = s) ∨
  ((∃ c, s.find? u.alphabetic = some c ∧ u.uppercase c = true) ∧
    ∃ ps : List (Stretch × List Char), Stretches s (ps.map (·.1)) ∧ StretchesOk R Q true true ps ∧ out = ps.flatMap (·.2))

/-- What becomes of a heading. Quotations nest at most once, as the inner one has no closing mark of
either kind. -/
def Sentence (u : Uni) (R : Bool → List Char → List Char → Prop) (text out : List Char) : Prop :=
  ∃ outs, out = joinWith ['`'] outs ∧ outs.length = (splitOn '`' text).length ∧
    ∀ i s o, (splitOn '`' text)[i]? = some s → outs[i]? = some o →
      (i % 2 = 1 → o = s) ∧
      (i % 2 = 0 → ∃ t, Curled u s t ∧ ∃ ps : List (Stretch × List Char), Stretches t (ps.map (·.1)) ∧
        StretchesOk R (Quoted u R (Quoted u R fun _ _ => False)) false (i == 0) ps ∧ o = ps.flatMap (·.2))

/-- Capital letters have no replacement character, which is not one itself. -/
structure MarkOk (u : Uni) : Prop where
  upper : ∀ c, '�' ∈ u.toUpper c → c = '�'
  mark : u.uppercase '�' = false

/-- Every noun of several words has a word in it, in whatever case it is written. -/
def WordyNouns (u : Uni) (n : Nouns) : Prop := ∀ p s, PhraseNoun u n p → IsPhrase u p s → HasWord s

/-- A heading of a given level with a given text: underlined at the first two levels if that is
switched on, otherwise after number signs. -/
def HeadingLines (width : List Char → Nat) (setext1 setext2 : Bool) (level : Nat) (text out : List Char) : Prop :=
  (level = 1 → setext1 = true → out = text ++ '\n' :: List.replicate (width text) '=' ++ ['\n']) ∧
  (level = 2 → setext2 = true → out = text ++ '\n' :: List.replicate (width text) '-' ++ ['\n']) ∧
  ((level = 1 → setext1 = false) → (level = 2 → setext2 = false) →
    out = List.replicate level '#' ++ ' ' :: text ++ ['\n'])

end Hongdown.Spec
