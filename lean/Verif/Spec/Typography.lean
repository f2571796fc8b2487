import Verif.Str

/-!
# Specifications for the typographic conversions

Independent of the model: runs of a character, folding typographic characters back
to the ASCII they stand for.
-/

namespace Hongdown.Spec

/-- The lengths of the maximal runs of `c` in a text, in order; between any two other
characters there is one (possibly empty) run. `cur` counts the current run. -/
def runsGo (c : Char) (cur : Nat) : List Char → List Nat
  | [] => [cur]
  | x :: xs => if x = c then runsGo c (cur + 1) xs else cur :: runsGo c 0 xs

def runs (c : Char) (s : List Char) : List Nat := runsGo c 0 s

/-- What a typographic character stands for, given the ASCII patterns of the dashes. -/
def foldChar (en em : Option (List Char)) (c : Char) : List Char :=
  if c = '“' ∨ c = '”' then ['"']
  else if c = '‘' ∨ c = '’' then ['\'']
  else if c = '…' then ['.', '.', '.']
  else if c = '–' then en.getD ['–']
  else if c = '—' then em.getD ['—']
  else [c]

/-- A text with its typographic characters replaced by what they stand for. -/
def fold (en em : Option (List Char)) (s : List Char) : List Char := s.flatMap (foldChar en em)

/-- Replace each `rep` by `pat`. -/
def expand (rep : Char) (pat : List Char) (s : List Char) : List Char :=
  s.flatMap fun c => if c = rep then pat else [c]

/-- A place where a quotation can begin: the start of the text, or after a space, an
opening bracket or an opening quotation mark. -/
def QuoteMayOpen (before : List Char) : Prop :=
  ∀ c ∈ before.getLast?, isWs c = true ∨ c ∈ "([{“‘".toList

/-- A place where a quotation can end: the end of the text, or before a space, a closing
bracket or sentence punctuation. -/
def QuoteMayClose (after : List Char) : Prop :=
  ∀ c ∈ after.head?, isWs c = true ∨ c ∈ ".,;:!?)]}".toList

instance (s : List Char) : Decidable (QuoteMayOpen s) := by unfold QuoteMayOpen; infer_instance
instance (s : List Char) : Decidable (QuoteMayClose s) := by unfold QuoteMayClose; infer_instance

end Hongdown.Spec
