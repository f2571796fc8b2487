import Verif.Model.Heading

/-!
# Sentence case
-/

namespace Hongdown.Spec
open Model

/-- Fold the case of a text. -/
def foldCase (f : Char → List Char) (s : List Char) : List Char := s.flatMap f

/-- `f` folds case: the Unicode case folding does. The dotless i is left out, since its upper
case is that of i. -/
structure LetterFold (u : Uni) (f : Char → List Char) : Prop where
  lower : ∀ s, foldCase f (u.strLower s) = foldCase f s
  upper : ∀ c, c ≠ 'ı' → foldCase f (u.toUpper c) = f c
  ascii : ∀ c : Char, f c.toLower = f c
  mark : ∀ c, '�' ∈ f c ↔ c = '�'
  space : ∀ c, ' ' ∈ f c ↔ c = ' '
  digit : ∀ c, isAsciiDigit c = true → u.alphanumeric c = true ∧ u.alphabetic c = false
  markClass : u.alphanumeric '�' = false

/-- `f` folds the style of quotation marks, too: they are made straight. -/
structure CaseFold (u : Uni) (f : Char → List Char) : Prop extends LetterFold u f where
  single : f '‘' = f '\'' ∧ f '’' = f '\''
  double : f '“' = f '"' ∧ f '”' = f '"'

/-- The built-in nouns come with keys that differ only in case; no noun has the replacement
character. -/
structure NounsOk (f : Char → List Char) (n : Nouns) : Prop where
  key : ∀ p ∈ n.builtin, foldCase f p.1 = foldCase f p.2
  builtin : ∀ p ∈ n.builtin, '�' ∉ p.1
  proper : ∀ p ∈ n.proper, '�' ∉ p

/-- Two lists of texts: the first, third and so on are related, the others are the same. -/
def Alternate (R : List Char → List Char → Prop) : Bool → List (List Char) → List (List Char) → Prop
  | _, [], [] => True
  | false, a :: as, b :: bs => R a b ∧ Alternate R true as bs
  | true, a :: as, b :: bs => a = b ∧ Alternate R false as bs
  | _, _, _ => False

/-- A quotation mark opens a quotation: nothing, white space or a bracket before it and a letter
or digit after it. -/
def Opens (u : Uni) (x y : List Char) : Prop :=
  (x = [] ∨ ∃ c, x.getLast? = some c ∧ (isWs c = true ∨ c = '(' ∨ c = '[')) ∧ ∃ c, y.head? = some c ∧ u.alphanumeric c = true

/-- A mark is an apostrophe: before the two digits and the s of a decade, between letters, before
a final s, or after a letter at the end of a word where no quotation is open. -/
def IsApostrophe (u : Uni) (quoted : Prop) (x y : List Char) : Prop :=
  (∃ d e rest, y = d :: e :: 's' :: rest ∧ isAsciiDigit d = true ∧ isAsciiDigit e = true ∧
    ∀ c, x.getLast? = some c → u.alphanumeric c = false) ∨
  ((∃ c, x.getLast? = some c ∧ u.alphabetic c = true) ∧
    ((∃ c, y.head? = some c ∧ (u.alphabetic c = true ∨ isWs c = true ∧ ¬ quoted)) ∨
      ∃ rest, y = 's' :: rest ∧ ∀ c, rest.head? = some c → u.alphanumeric c = false))

/-- A single quotation mark was opened in what is paired here with its output, and was not closed. -/
def InSingle (z : List (Char × Char)) : Prop := ∃ a b, z = a ++ ('\'', '‘') :: b ∧ ('\'', '’') ∉ b

/-- What becomes of a character with the pairs of characters and outputs `z` before it and the
text `y` after it. -/
def Mark (u : Uni) (z : List (Char × Char)) (c : Char) (y : List Char) (d : Char) : Prop :=
  (c ≠ '\'' → c ≠ '"' → d = c) ∧
  (c = '"' → Opens u (z.map (·.1)) y → d = '“') ∧
  (c = '"' → ¬ Opens u (z.map (·.1)) y → d = '”') ∧
  (c = '\'' → IsApostrophe u (InSingle z) (z.map (·.1)) y → d = '\'') ∧
  (c = '\'' → ¬ IsApostrophe u (InSingle z) (z.map (·.1)) y → Opens u (z.map (·.1)) y → d = '‘') ∧
  (c = '\'' → ¬ IsApostrophe u (InSingle z) (z.map (·.1)) y → ¬ Opens u (z.map (·.1)) y → d = '’')

/-- The second text is the first with its quotation marks curled. -/
def Curled (u : Uni) (s t : List Char) : Prop :=
  t.length = s.length ∧ ∀ z c d r, s.zip t = z ++ (c, d) :: r → Mark u z c (r.map (·.1)) d

/-- All letters of the word are capitals, and there is one. -/
def AllCaps (u : Uni) (w : List Char) : Prop :=
  (∃ c ∈ w, u.alphabetic c = true) ∧ ∀ c ∈ w, u.alphabetic c = true → u.uppercase c = true

/-- Capital letter. -/
def Capital (u : Uni) (c : Char) : Prop := u.uppercase c = true ∧ u.alphabetic c = true

/-- An acronym as the code has it: two capitals first, or a period right after a letter,
and two letters, one of them a capital. -/
def Acronym (u : Uni) (w : List Char) : Prop :=
  (∃ a b rest, w = a :: b :: rest ∧ Capital u a ∧ Capital u b) ∨
  ((∃ x c y, w = x ++ c :: '.' :: y ∧ u.alphabetic c = true) ∧
    (∃ c ∈ w, Capital u c) ∧ 2 ≤ (w.filter u.alphabetic).length)

/-- The pronoun, or one of its contractions. -/
def Pronoun (w : List Char) : Prop :=
  ∃ c rest, w = c :: rest ∧ (c = 'i' ∨ c = 'I') ∧ (rest = [] ∨ rest.head? = some '\'' ∨ rest.head? = some '’')

/-- The word is `core` with punctuation before and after it, and perhaps a possessive ending. -/
def Dressed (u : Uni) (word lead core trail : List Char) : Prop :=
  word = lead ++ core ++ trail ∧
  (∀ c ∈ lead, u.alphanumeric c = false ∧ c ≠ '@') ∧
  (∃ c, core.head? = some c ∧ (u.alphanumeric c = true ∨ c = '@')) ∧
  (∃ c, core.getLast? = some c ∧ u.alphanumeric c = true) ∧
  (∃ c ∈ core, u.alphabetic c = true) ∧
  ∃ punct own, trail = punct ++ own ∧ (∀ c ∈ punct, u.alphanumeric c = false) ∧
    (own = ['\'', 's'] ∨ own = ['’', 's'] ∨
      (own = [] ∧ ¬ ['\'', 's'] <:+ core ++ punct ∧ ¬ ['’', 's'] <:+ core ++ punct))

/-- The two differ only in case. -/
def SameNoun (u : Uni) (a b : List Char) : Prop := u.strLower a = u.strLower b

/-- A word with nothing in it that ends it or that sentence case treats apart from it: no white
space, backquote, colon, semicolon, dash or quotation mark; a straight apostrophe only between
letters. -/
def PlainWord (u : Uni) (w : List Char) : Prop :=
  w ≠ [] ∧ (∀ c ∈ w, isWs c = false ∧ c ∉ ['`', '"', '‘', '“', ':', ';', '—', '–', '�']) ∧
  ∀ x y, w = x ++ '\'' :: y →
    (∃ c, x.getLast? = some c ∧ u.alphabetic c = true) ∧ ∃ c, y.head? = some c ∧ u.alphabetic c = true

/-- The word has its case kept. -/
def Kept (u : Uni) (w : List Char) : Prop := AllCaps u w ∨ Acronym u w

/-- What becomes of a word that no rule singles out: lower case, and a first capital letter in
the first word. -/
def recased (u : Uni) (first : Bool) (w : List Char) : List Char :=
  match first, w with
  | true, c :: rest => u.toUpper c ++ u.strLower rest
  | _, w => u.strLower w

/-- The rules for a word. The first that applies wins: capitals and acronyms stay, the pronoun
is I, proper nouns get the spelling they are listed with, other words are recased. -/
structure WordOk (u : Uni) (n : Nouns) (first : Bool) (w out : List Char) : Prop where
  kept : Kept u w → out = w
  pronoun : ¬ Kept u w → Pronoun w → out = 'I' :: (w.drop 1).map Char.toLower
  proper : ¬ Kept u w → ¬ Pronoun w → ∀ lead core trail, Dressed u w lead core trail →
    (∀ c ∈ n.common, ¬ SameNoun u c core) → (∃ p ∈ n.proper, SameNoun u p core) →
    ∃ p ∈ n.proper, SameNoun u p core ∧ out = lead ++ p ++ trail
  builtin : ¬ Kept u w → ¬ Pronoun w → ∀ lead core trail, Dressed u w lead core trail →
    (∀ c ∈ n.common, ¬ SameNoun u c core) → (∀ p ∈ n.proper, ¬ SameNoun u p core) →
    (∃ p ∈ n.builtin, p.2 = u.strLower core) →
    ∃ p ∈ n.builtin, p.2 = u.strLower core ∧ out = lead ++ p.1 ++ trail
  other : ¬ Kept u w → ¬ Pronoun w → ∀ lead core trail, Dressed u w lead core trail →
    ((∃ c ∈ n.common, SameNoun u c core) ∨
      (∀ p ∈ n.proper, ¬ SameNoun u p core) ∧ ∀ p ∈ n.builtin, p.2 ≠ u.strLower core) →
    out = recased u first w
  letterless : (∀ c ∈ w, u.alphabetic c = false) → ¬ Kept u w → ¬ Pronoun w → out = recased u first w

/-- The rules for a word with hyphens or slashes, `sep`: a listed noun gets its spelling, other
words have their parts treated as words; only the first part can be the first word. -/
structure CompoundOk (u : Uni) (n : Nouns) (first : Bool) (sep : Char) (w out : List Char) : Prop where
  proper : ∀ lead core trail, Dressed u w lead core trail →
    (∀ c ∈ n.common, ¬ SameNoun u c core) → (∃ p ∈ n.proper, SameNoun u p core) →
    ∃ p ∈ n.proper, SameNoun u p core ∧ out = lead ++ p ++ trail
  builtin : ∀ lead core trail, Dressed u w lead core trail →
    (∀ c ∈ n.common, ¬ SameNoun u c core) → (∀ p ∈ n.proper, ¬ SameNoun u p core) →
    (∃ p ∈ n.builtin, p.2 = u.strLower core) →
    ∃ p ∈ n.builtin, p.2 = u.strLower core ∧ out = lead ++ p.1 ++ trail
  parts : ∀ lead core trail, Dressed u w lead core trail →
    ((∃ c ∈ n.common, SameNoun u c core) ∨
      (∀ p ∈ n.proper, ¬ SameNoun u p core) ∧ ∀ p ∈ n.builtin, p.2 ≠ u.strLower core) →
    ∃ outs, out = joinWith [sep] outs ∧ outs.length = (splitOn sep w).length ∧
      ∀ i part out', (splitOn sep w)[i]? = some part → outs[i]? = some out' →
        (part = [] → out' = []) ∧ (part ≠ [] → WordOk u n (first && i == 0) part out')

/-- No noun has a space. -/
def OneWordNouns (n : Nouns) : Prop := (∀ p ∈ n.builtin, ' ' ∉ p.1) ∧ ∀ p ∈ n.proper, ' ' ∉ p

/-- The tables are right for ASCII. -/
structure AsciiOk (u : Uni) : Prop where
  alphabetic : ∀ c : Char, c.toNat < 128 → u.alphabetic c = c.isAlpha
  alphanumeric : ∀ c : Char, c.toNat < 128 → u.alphanumeric c = c.isAlphanum
  upper : ∀ c : Char, c.toNat < 128 → u.toUpper c = [c.toUpper]
  lower : ∀ s : List Char, (∀ c ∈ s, c.toNat < 128) → u.strLower s = s.map Char.toLower

/-- A plain word in ASCII without apostrophes. -/
def AsciiWord (u : Uni) (w : List Char) : Prop := PlainWord u w ∧ ∀ c ∈ w, c.toNat < 128 ∧ c ≠ '\''

/-- The nouns are in ASCII. -/
def AsciiNouns (n : Nouns) : Prop :=
  (∀ p ∈ n.builtin, p.1.map Char.toLower = p.2 ∧ ∀ c ∈ p.1, c.toNat < 128) ∧ ∀ p ∈ n.proper, ∀ c ∈ p, c.toNat < 128

end Hongdown.Spec
