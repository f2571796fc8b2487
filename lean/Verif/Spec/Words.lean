import Verif.Str

/-!
# Specifications about text up to whitespace
-/

namespace Hongdown.Spec

/-- The visible characters: everything but whitespace and the soft break marker. -/
def visible (s : List Char) : List Char := s.filter fun c => !(isWs c || c = '\x00')

/-- The words of a text: maximal pieces without whitespace and soft break markers. `acc`
is the word being read, reversed. -/
def wordsAux : List Char → List Char → List (List Char)
  | acc, [] => if acc = [] then [] else [acc.reverse]
  | acc, c :: cs =>
    if isWs c ∨ c = '\x00' then
      (if acc = [] then [] else [acc.reverse]) ++ wordsAux [] cs
    else wordsAux (c :: acc) cs

def words (s : List Char) : List (List Char) := wordsAux [] s

/-- What is needed of a display width: the empty text has none, a space takes one column
and separates what is around it, and dropping trailing whitespace does not widen. -/
structure WidthOk (w : List Char → Nat) : Prop where
  nil : w [] = 0
  space : ∀ a b, w (a ++ ' ' :: b) = w a + 1 + w b
  trim : ∀ a, w (trimEnd a) ≤ w a

/-- Widths that are sums of character widths, with one column for a space, qualify. -/
theorem widthOk_sum (f : Char → Nat) (h : f ' ' = 1) :
    WidthOk (fun s => (s.map f).sum) := by
  refine ⟨rfl, ?_, ?_⟩
  · intro a b; simp [h]; omega
  · intro a
    show ((trimEnd a).map f).sum ≤ (a.map f).sum
    have h1 : ∀ l : List Char, (l.map f).sum = (l.reverse.map f).sum := by
      intro l; rw [List.map_reverse, List.sum_reverse]
    rw [h1 a, h1 (trimEnd a), trimEnd, List.reverse_reverse]
    generalize a.reverse = b
    induction b with
    | nil => simp
    | cons c cs ih =>
      rw [List.dropWhile_cons]
      split
      · simp; omega
      · exact Nat.le_refl _

/-- The characters outside code spans and brackets. -/
def bareGo : Bool → Nat → List Char → List Char
  | _, _, [] => []
  | ticks, d, c :: cs =>
    if c = '`' ∧ d = 0 then bareGo (!ticks) d cs
    else if ticks then bareGo ticks d cs
    else if c = '[' then bareGo ticks (d + 1) cs
    else if c = ']' ∧ d > 0 then bareGo ticks (d - 1) cs
    else if d > 0 then bareGo ticks d cs
    else c :: bareGo ticks d cs

/-- Where a text ends: whether inside a code span, and how many brackets are open. -/
def endSt : Bool → Nat → List Char → Bool × Nat
  | b, d, [] => (b, d)
  | b, d, c :: cs =>
    if c = '`' ∧ d = 0 then endSt (!b) d cs
    else if b then endSt b d cs
    else if c = '[' then endSt b (d + 1) cs
    else if c = ']' ∧ d > 0 then endSt b (d - 1) cs
    else endSt b d cs

/-- The text ends outside code spans and brackets. -/
def EndsOutside (s : List Char) : Prop := endSt false 0 s = (false, 0)

instance (s : List Char) : Decidable (EndsOutside s) := by unfold EndsOutside; infer_instance

/-- A piece of text that is not to be broken: no space outside code spans and brackets. -/
def Unbreakable (s : List Char) : Prop := ' ' ∉ bareGo false 0 s

instance (s : List Char) : Decidable (Unbreakable s) := by unfold Unbreakable; infer_instance

/-- Lines put after prefixes: `fp` before the first line, `pfx` before the others. -/
def layout (fp pfx : List Char) : List (List Char) → List (List Char)
  | [] => []
  | c :: cs => (fp ++ c) :: cs.map (pfx ++ ·)

/-- A text the wrapper can take apart without surprises: it is one soft line that does not
begin with a space, or there are several, all of them with something on it. -/
def SoftOk (text : List Char) : Prop :=
  if '\x00' ∈ text then ∀ l ∈ splitOn '\x00' text, trim l ≠ [] else text.head? ≠ some ' '

instance (text : List Char) : Decidable (SoftOk text) := by unfold SoftOk; infer_instance

/-- Prefixes used by the serializer are empty or end in a space. -/
def PfxOk (p : List Char) : Prop := p = [] ∨ p.getLast? = some ' '

instance (p : List Char) : Decidable (PfxOk p) := by unfold PfxOk; infer_instance

/-- A line as it appears inside a paragraph: not blank, no whitespace at the ends, single
spaces between words. -/
structure CleanLine (l : List Char) : Prop where
  ne : l ≠ []
  trim : trim l = l
  ws : ∀ c ∈ l, isWs c = true → c = ' '
  single : ¬ [' ', ' '] <:+: l

/-- Words which, at the beginning of a line, do not continue a paragraph: list markers,
heading markers, block quote markers and underlines of setext headings. -/
def blockWord (s : List Char) : Bool :=
  s = ['-'] || s = ['+'] || s = ['*'] || s = ['1', '.'] || s = ['1', ')'] ||
  (s ≠ [] && s.length ≤ 6 && s.all (· = '#')) ||
  (s ≠ [] && s.all (· = '=')) || (s ≠ [] && s.all (· = '-')) || s.head? = some '>'

end Hongdown.Spec
