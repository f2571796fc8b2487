import Verif.Model.Uni
import Verif.Model.Punctuation

/-!
# Model of `src/serializer/heading.rs`: sentence case

The built-in proper nouns are generated at build time (build.rs, data/); they are the
parameter `builtin`, pairs of the canonical form and the lower case key.
-/

namespace Hongdown.Model

/-- The nouns a run of sentence case uses: the built-in pairs, the user's proper nouns and
the user's common nouns. -/
structure Nouns where
  builtin : List (List Char × List Char)
  proper : List (List Char)
  common : List (List Char)

/-- `Token` (src/serializer/heading.rs:63-70). -/
inductive HTok where
  | code (s : List Char)
  | quote (s : List Char) (double : Bool)
  | text (s : List Char)
  deriving DecidableEq

/-! ### Quotes -/

/-- Is a straight single quote an apostrophe that stays straight
(src/serializer/heading.rs:93-134)? `prev` is the character before, `opened` says that a
single quote is open, `rest` is the text after the quote. -/
def isHeadingApostrophe (u : Uni) (opened : Bool) (prev : Option Char) (rest : List Char) : Bool :=
  -- decade: the quote, two digits and an `s`, not after a letter or digit
  (match rest with
    | d1 :: d2 :: 's' :: _ => isAsciiDigit d1 && isAsciiDigit d2 && !(prev.any u.alphanumeric)
    | _ => false) ||
  (prev.any u.alphabetic &&
    (rest.head?.any u.alphabetic ||
     (match rest with
       | ['s'] => true
       | 's' :: c :: _ => !u.alphanumeric c
       | _ => false) ||
     (rest.head?.any isWs && !opened)))

/-- Does a straight quote open a quotation (src/serializer/heading.rs:137-155, 161-176)? -/
def isHeadingOpening (u : Uni) (prev : Option Char) (rest : List Char) : Bool :=
  (match prev with
    | none => true
    | some c => isWs c || c = '(' || c = '[') &&
  rest.head?.any u.alphanumeric

/-- `normalize_quotes` (src/serializer/heading.rs:79-187). -/
def normQuotes (u : Uni) (opened : Bool) (prev : Option Char) : List Char → List Char
  | [] => []
  | c :: rest =>
    if c = '\'' then
      if isHeadingApostrophe u opened prev rest then '\'' :: normQuotes u opened (some c) rest
      else if isHeadingOpening u prev rest then '‘' :: normQuotes u true (some c) rest
      else '’' :: normQuotes u false (some c) rest
    else if c = '"' then
      (if isHeadingOpening u prev rest then '“' else '”') :: normQuotes u opened (some c) rest
    else c :: normQuotes u opened (some c) rest

/-! ### Tokens -/

/-- The text token for the text collected so far, if there is any. -/
def flushTok (cur : List Char) : List HTok := if cur = [] then [] else [.text cur]

/-- `tokenize_quotes` (src/serializer/heading.rs:228-295). `fuel` bounds the recursion; the
length of the text is enough. `cur` is the text collected so far. -/
def tokenizeQuotes (fuel : Nat) (cur : List Char) (s : List Char) : List HTok :=
  match fuel, s with
  | 0, _ => flushTok cur
  | _ + 1, [] => flushTok cur
  | fuel + 1, c :: rest =>
    if c = '“' then
      if rest.contains '”' then
        flushTok cur ++ .quote (rest.takeWhile (· ≠ '”')) true ::
          tokenizeQuotes fuel [] (rest.drop ((rest.takeWhile (· ≠ '”')).length + 1))
      else flushTok cur ++ [.text (c :: rest)]
    else if c = '‘' then
      if rest.contains '’' then
        flushTok cur ++ .quote (rest.takeWhile (· ≠ '’')) false ::
          tokenizeQuotes fuel [] (rest.drop ((rest.takeWhile (· ≠ '’')).length + 1))
      else flushTok cur ++ [.text (c :: rest)]
    else tokenizeQuotes fuel (cur ++ [c]) rest

/-- Quote normalisation and tokenizing of a piece of text between code spans
(src/serializer/heading.rs:198-202, 219-222). -/
def tokenizeText (u : Uni) (cur : List Char) : List HTok :=
  let n := normQuotes u false none cur
  tokenizeQuotes n.length [] n

/-- A code span with its backquotes, or up to the end of the text
(src/serializer/heading.rs:205-212); `rest` follows the first backquote. -/
def codeSpanOf (rest : List Char) : List Char :=
  '`' :: rest.takeWhile (· ≠ '`') ++ (if rest.contains '`' then ['`'] else [])

/-- `tokenize_with_code_spans` (src/serializer/heading.rs:190-225); the length of the text
is enough fuel. -/
def tokenizeCode (u : Uni) (fuel : Nat) (cur : List Char) (s : List Char) : List HTok :=
  match fuel, s with
  | 0, _ => tokenizeText u cur
  | _ + 1, [] => tokenizeText u cur
  | fuel + 1, c :: rest =>
    if c = '`' then
      tokenizeText u cur ++ .code (codeSpanOf rest) ::
        tokenizeCode u fuel [] (rest.drop ((rest.takeWhile (· ≠ '`')).length + 1))
    else tokenizeCode u fuel (cur ++ [c]) rest

/-! ### Words -/

/-- `is_first_person_pronoun_i` (src/serializer/heading.rs:673-700). -/
def pronounI : List Char → Option (List Char)
  | [c] => if c = 'i' ∨ c = 'I' then some ['I'] else none
  | c :: q :: rest =>
    if (c = 'i' ∨ c = 'I') ∧ (q = '\'' ∨ q = '’') then
      some ('I' :: q :: rest.map Char.toLower)
    else none
  | [] => none

/-- Is there a letter with a period directly after it (src/serializer/heading.rs:780-793)? -/
def letterPeriod (u : Uni) : List Char → Bool
  | c :: d :: rest => (u.alphabetic c && d = '.') || letterPeriod u (d :: rest)
  | _ => false

/-- `is_acronym` (src/serializer/heading.rs:751-797). -/
def isAcronym (u : Uni) (word : List Char) : Bool :=
  match word with
  | a :: b :: _ =>
    (u.uppercase a && u.alphabetic a && u.uppercase b && u.alphabetic b) ||
    (letterPeriod u word && 2 ≤ (word.filter u.alphabetic).length &&
      (word.any fun c => u.alphabetic c && u.uppercase c))
  | _ => false

/-- Split off a possessive ending (src/serializer/heading.rs:822-829). -/
def possessive (s : List Char) : List Char × List Char :=
  match stripSuffix? ['\'', 's'] s with
  | some core => (core, ['\'', 's'])
  | none => match stripSuffix? ['’', 's'] s with
    | some core => (core, ['’', 's'])
    | none => (s, [])

/-- `find_proper_noun` (src/serializer/heading.rs:804-869). -/
def findProperNoun (u : Uni) (n : Nouns) (word : List Char) : Option (List Char) :=
  let stop (c : Char) : Bool := u.alphanumeric c || c = '@'
  let leading := word.takeWhile fun c => !stop c
  let bare := word.dropWhile fun c => !stop c
  let cp := possessive bare
  let core := (cp.1.reverse.dropWhile fun c => !u.alphanumeric c).reverse
  let trailing := cp.1.drop core.length
  let low := u.strLower core
  if core = [] ∨ core.any u.alphabetic = false then none
  else if n.common.any (fun c => u.strLower c = low) then none
  else match n.proper.find? (fun p => u.strLower p = low) with
    | some p => some (leading ++ p ++ trailing ++ cp.2)
    | none => match n.builtin.find? (fun p => p.2 = low) with
      | some p => some (leading ++ p.1 ++ trailing ++ cp.2)
      | none => none

/-- `capitalize_first` (src/serializer/heading.rs:872-882). -/
def capitalizeFirst (u : Uni) : List Char → List Char
  | [] => []
  | c :: rest => u.toUpper c ++ u.strLower rest

/-- `process_word_simple` (src/serializer/heading.rs:703-748). -/
def processWordSimple (u : Uni) (n : Nouns) (word : List Char) (first : Bool) : List Char :=
  if word = [] then []
  else if word.contains '�' then word
  else if word.filter u.alphabetic ≠ [] ∧ (word.filter u.alphabetic).all u.uppercase then word
  else if isAcronym u word then word
  else match pronounI word with
    | some w => w
    | none => match findProperNoun u n word with
      | some w => w
      | none => if first then capitalizeFirst u word else u.strLower word

/-- The parts of a word with hyphens or slashes: only the first part can be the first word
(src/serializer/heading.rs:637-664). -/
def processParts (u : Uni) (n : Nouns) (sep : Char) (word : List Char) (first : Bool) :
    List Char :=
  joinWith [sep] ((splitOn sep word).mapIdx fun i part =>
    processWordSimple u n part (first && i = 0))

/-- `process_word` (src/serializer/heading.rs:620-668). -/
def processWord (u : Uni) (n : Nouns) (word : List Char) (first : Bool) : List Char :=
  match (if word.contains '-' || word.contains '/' then findProperNoun u n word else none) with
  | some w => w
  | none =>
    if word.contains '-' then processParts u n '-' word first
    else if word.contains '/' then processParts u n '/' word first
    else processWordSimple u n word first

/-! ### Proper nouns of several words -/

/-- Stable insertion by byte length, longest first. -/
def insertByLen (x : List Char × List Char) : List (List Char × List Char) →
    List (List Char × List Char)
  | [] => [x]
  | y :: ys => if byteLen y.1 < byteLen x.1 then x :: y :: ys else y :: insertByLen x ys

/-- `collect_multiword_proper_nouns` (src/serializer/heading.rs:358-389). -/
def multiwordNouns (u : Uni) (n : Nouns) : List (List Char × List Char) :=
  let all := (n.builtin.map (·.1) ++ n.proper).filter fun p =>
    p.contains ' ' && !(n.common.map u.strLower).contains (u.strLower p)
  (all.map fun p => (p, u.strLower p)).foldl (fun acc x => insertByLen x acc) []

/-- `matches_ignoring_apostrophes` (src/serializer/heading.rs:398-402). -/
def matchesNoun (u : Uni) (text key : List Char) : Bool :=
  let norm (s : List Char) : List Char := (u.strLower s).map fun c => if c = '’' then '\'' else c
  norm text = norm key

/-- A placeholder (src/serializer/heading.rs:461). -/
def placeholder (i : Nat) : List Char := '�' :: (Nat.repr i).toList ++ ['�']

/-- The possessive ending at the start of a text (src/serializer/heading.rs:453-458). -/
def possessiveAt : List Char → List Char
  | '\'' :: 's' :: _ => ['\'', 's']
  | '’' :: 's' :: _ => ['’', 's']
  | _ => []

/-- One noun in `replace_multiword_with_placeholders` (src/serializer/heading.rs:414-498):
the first occurrence with word boundaries is replaced, then the search goes on after it.
When a scan finds only occurrences without boundaries the code scans once more from
the end of the last of them; that scan cannot find anything, so it is left out.
`prev` is the character before, `i` the number of the next placeholder. -/
def replaceNoun (u : Uni) (canonical key : List Char) (fuel : Nat) (prev : Option Char) (i : Nat)
    (s : List Char) : List Char × List (List Char × List Char) :=
  match fuel, s with
  | 0, _ => (s, [])
  | _ + 1, [] => ([], [])
  | fuel + 1, c :: rest =>
    let sub := s.take key.length
    let after := s.drop key.length
    if sub.length ≠ key.length then (s, [])
    else if matchesNoun u sub key && !(prev.any u.alphanumeric) &&
        !(after.head?.any u.alphanumeric) then
      let p := possessiveAt after
      let r := replaceNoun u canonical key fuel (some '�') (i + 1) (after.drop p.length)
      (placeholder i ++ r.1, (placeholder i, canonical ++ p) :: r.2)
    else
      let r := replaceNoun u canonical key fuel (some c) i rest
      (c :: r.1, r.2)

/-- `replace_multiword_with_placeholders` (src/serializer/heading.rs:406-501). -/
def replaceNouns (u : Uni) : List (List Char × List Char) → Nat → List Char →
    List Char × List (List Char × List Char)
  | [], _, s => (s, [])
  | (canonical, key) :: ns, i, s =>
    let a := replaceNoun u canonical key (s.length + 1) none i s
    let b := replaceNouns u ns (i + a.2.length) a.1
    (b.1, a.2 ++ b.2)

/-- `str::replace(from, to)` for a nonempty `from`; the length of the text is enough fuel. -/
def replaceAll (from_ to : List Char) (fuel : Nat) (s : List Char) : List Char :=
  match fuel, s with
  | 0, _ => s
  | _ + 1, [] => []
  | fuel + 1, c :: rest =>
    match stripPrefix? from_ (c :: rest) with
    | some r => to ++ replaceAll from_ to fuel r
    | none => c :: replaceAll from_ to fuel rest

/-- `restore_placeholders` (src/serializer/heading.rs:504-510). -/
def restorePlaceholders (s : List Char) (reps : List (List Char × List Char)) : List Char :=
  reps.foldl (fun s r => replaceAll r.1 r.2 s.length s) s

/-! ### Text -/

/-- Colon, semicolon and the two dashes (src/serializer/heading.rs:565). -/
def isHeadingDelimiter (c : Char) : Bool := c = ':' || c = ';' || c = '—' || c = '–'

/-- Should a word that ends at white space or at the end be capitalised
(src/serializer/heading.rs:541-547, 594-600)? The code also asks that no word came before
in this text; that follows from `first`. -/
def shouldCapitalize (u : Uni) (first after : Bool) (word : List Char) : Bool :=
  if first then true else if after then word.head?.any u.uppercase else false

/-- The loop of `process_text` (src/serializer/heading.rs:525-612). `word` is the current
word. Returns the text and the new value of `is_first_word`. -/
def processChars (u : Uni) (n : Nouns) (first after : Bool) (word : List Char) :
    List Char → List Char × Bool
  | [] =>
    if word = [] then ([], first)
    else (processWord u n word (shouldCapitalize u first after word), false)
  | c :: rest =>
    if isWs c then
      if word = [] then
        let r := processChars u n first after [] rest
        (c :: r.1, r.2)
      else
        let r := processChars u n false false [] rest
        (processWord u n word (shouldCapitalize u first after word) ++ c :: r.1, r.2)
    else if isHeadingDelimiter c then
      if word = [] then
        let r := processChars u n first true [] rest
        (c :: r.1, r.2)
      else
        let r := processChars u n false true [] rest
        (processWord u n word first ++ c :: r.1, r.2)
    else processChars u n first after (word ++ [c]) rest

/-- `process_text` (src/serializer/heading.rs:513-617). -/
def processText (u : Uni) (n : Nouns) (first : Bool) (text : List Char) : List Char × Bool :=
  let r := replaceNouns u (multiwordNouns u n) 0 text
  let p := processChars u n first false [] r.1
  (restorePlaceholders p.1 r.2, p.2)

/-- The loop over the tokens of a quotation (src/serializer/heading.rs:325-340); `q` is
`process_quoted_text` for the quotations inside. -/
def processQuotedToks (u : Uni) (n : Nouns) (q : List Char → Bool → List Char) :
    Bool → List HTok → List Char
  | _, [] => []
  | first, .code s :: ts => s ++ processQuotedToks u n q first ts
  | _, .quote s d :: ts => q s d ++ processQuotedToks u n q false ts
  | first, .text s :: ts =>
    let r := processText u n first s
    r.1 ++ processQuotedToks u n q r.2 ts

/-- Put quotation marks around a text (src/serializer/heading.rs:309-310, 352). -/
def inQuotes (double : Bool) (s : List Char) : List Char :=
  if double then '“' :: s ++ ['”'] else '‘' :: s ++ ['’']

/-- `process_quoted_text` (src/serializer/heading.rs:303-353). The nesting depth of
quotations bounds the recursion; the length of the text is enough fuel. -/
def processQuoted (u : Uni) (n : Nouns) : Nat → List Char → Bool → List Char
  | 0, content, double => inQuotes double content
  | fuel + 1, content, double =>
    inQuotes double (match content.find? u.alphabetic with
      | some c =>
        if u.uppercase c then
          processQuotedToks u n (processQuoted u n fuel) true
            (tokenizeQuotes content.length [] content)
        else content
      | none => content)

/-- The loop over the tokens of a heading (src/serializer/heading.rs:32-55). -/
def sentenceToks (u : Uni) (n : Nouns) : Bool → List HTok → List Char
  | _, [] => []
  | _, .code s :: ts => s ++ sentenceToks u n false ts
  | first, .quote s d :: ts => processQuoted u n s.length s d ++ sentenceToks u n first ts
  | first, .text s :: ts =>
    let r := processText u n first s
    r.1 ++ sentenceToks u n r.2 ts

/-- `to_sentence_case` (src/serializer/heading.rs:18-59). -/
def toSentenceCase (u : Uni) (n : Nouns) (text : List Char) : List Char :=
  sentenceToks u n true (tokenizeCode u text.length [] text)

end Hongdown.Model
