import Verif.Spec.Lists
import Verif.Model.Config

/-!
# How the numbers of ordered lists are padded (README.md:230, src/config.rs:466-477)
-/

namespace Hongdown.Spec
open Model

/-- Padding after the number, `1. `, `2. `, ..., `10.`: the number comes first, and the marker has the
given width with the spaces after it. -/
def PaddedAfter (width k : Nat) (m : List Char) : Prop :=
  ∃ digits delim gap, m = digits ++ delim :: List.replicate gap ' ' ∧ decimal digits = some k ∧
    (delim = '.' ∨ delim = ')') ∧ 1 ≤ gap ∧ m.length = width

/-- The column of the delimiter in a line with the number of an item. -/
def delimiterColumn (line : List Char) : Option Nat := line.findIdx? fun c => c = '.' ∨ c = ')'

/-- The column of the text of an item. -/
def textColumn (line : List Char) : Option Nat := (readItem line).map (·.content)

/-- Padding before the number, `  1.`, `  2.`, ..., ` 10.`: the delimiters stand in one column. -/
def PaddedBefore (ls : List (List Char)) : Prop :=
  ∀ a ∈ ls, ∀ b ∈ ls, delimiterColumn a = delimiterColumn b

/-- The texts of the items stand in one column. -/
def TextsAligned (ls : List (List Char)) : Prop := ∀ a ∈ ls, ∀ b ∈ ls, textColumn a = textColumn b

instance (ls : List (List Char)) : Decidable (PaddedBefore ls) := by unfold PaddedBefore; infer_instance
instance (ls : List (List Char)) : Decidable (TextsAligned ls) := by unfold TextsAligned; infer_instance

/-- Two configuration files that say the same but for `pad` in the section `ordered_list`. -/
structure SameButPad (t t' : List (List Char × Toml)) : Prop where
  others : ∀ k, k ≠ "ordered_list".toList → t.lookup k = t'.lookup k
  lists : ∃ s s', t.lookup "ordered_list".toList = some (.table s) ∧
    t'.lookup "ordered_list".toList = some (.table s') ∧ ∀ k, k ≠ "pad".toList → s.lookup k = s'.lookup k

end Hongdown.Spec
