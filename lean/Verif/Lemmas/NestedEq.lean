import Verif.Spec.Nested

/-!
# Deciding whether two blocks are equal, and whether their text is plain

For examples.
-/

namespace Hongdown.Spec

mutual

def treeEq : TreeBlock → TreeBlock → Bool
  | .leaf g b, .leaf h c => g == h && decide (b = c)
  | .list g s t items, .list h s' t' items' => g == h && decide (s = s') && t == t' && itemsEq items items'
  | .quote g a b, .quote h a' c => g == h && (decide (a = a') && decide (b = c))
  | .leaf _ _, .list _ _ _ _ => false
  | .list _ _ _ _, .leaf _ _ => false
  | .leaf _ _, .quote _ _ _ => false
  | .quote _ _ _, .leaf _ _ => false
  | .list _ _ _ _, .quote _ _ _ => false
  | .quote _ _ _, .list _ _ _ _ => false
  | .table g a r, .table h b s => g == h && decide (a = b) && decide (r = s)
  | .leaf _ _, .table _ _ _ => false
  | .table _ _ _, .leaf _ _ => false
  | .list _ _ _ _, .table _ _ _ => false
  | .table _ _ _, .list _ _ _ _ => false
  | .quote _ _ _, .table _ _ _ => false
  | .table _ _ _, .quote _ _ _ => false

def itemsEq : List (List TreeBlock) → List (List TreeBlock) → Bool
  | [], [] => true
  | a :: as, b :: bs => blocksEq a b && itemsEq as bs
  | [], _ :: _ => false
  | _ :: _, [] => false

def blocksEq : List TreeBlock → List TreeBlock → Bool
  | [], [] => true
  | a :: as, b :: bs => treeEq a b && blocksEq as bs
  | [], _ :: _ => false
  | _ :: _, [] => false

end

mutual

theorem treeEq_iff : ∀ a b : TreeBlock, treeEq a b = true ↔ a = b
  | .leaf g b, .leaf h c => by rw [treeEq]; simp
  | .list g s t items, .list h s' t' items' => by
    have := itemsEq_iff items items'
    rw [treeEq]; simp [this, and_assoc]
  | .quote g a b, .quote h a' c => by rw [treeEq]; simp
  | .leaf _ _, .list _ _ _ _ => by rw [treeEq]; simp
  | .list _ _ _ _, .leaf _ _ => by rw [treeEq]; simp
  | .leaf _ _, .quote _ _ _ => by rw [treeEq]; simp
  | .quote _ _ _, .leaf _ _ => by rw [treeEq]; simp
  | .list _ _ _ _, .quote _ _ _ => by rw [treeEq]; simp
  | .quote _ _ _, .list _ _ _ _ => by rw [treeEq]; simp
  | .table g a r, .table h b s => by rw [treeEq]; simp [and_assoc]
  | .leaf _ _, .table _ _ _ => by rw [treeEq]; simp
  | .table _ _ _, .leaf _ _ => by rw [treeEq]; simp
  | .list _ _ _ _, .table _ _ _ => by rw [treeEq]; simp
  | .table _ _ _, .list _ _ _ _ => by rw [treeEq]; simp
  | .quote _ _ _, .table _ _ _ => by rw [treeEq]; simp
  | .table _ _ _, .quote _ _ _ => by rw [treeEq]; simp

theorem itemsEq_iff : ∀ a b : List (List TreeBlock), itemsEq a b = true ↔ a = b
  | [], [] => by rw [itemsEq]; simp
  | a :: as, b :: bs => by
    have h1 := blocksEq_iff a b
    have h2 := itemsEq_iff as bs
    rw [itemsEq]; simp [h1, h2]
  | [], _ :: _ => by rw [itemsEq]; simp
  | _ :: _, [] => by rw [itemsEq]; simp

theorem blocksEq_iff : ∀ a b : List TreeBlock, blocksEq a b = true ↔ a = b
  | [], [] => by rw [blocksEq]; simp
  | a :: as, b :: bs => by
    have h1 := treeEq_iff a b
    have h2 := blocksEq_iff as bs
    rw [blocksEq]; simp [h1, h2]
  | [], _ :: _ => by rw [blocksEq]; simp
  | _ :: _, [] => by rw [blocksEq]; simp

end

instance : DecidableEq TreeBlock := fun a b => decidable_of_iff _ (treeEq_iff a b)

/-- The text of a block is plain, without code spans, emphasis and links. -/
def textOnly : CoreBlock → Bool
  | .heading _ ls => decide (ContentReads ls [.span (.text (joinWith ['\n'] ls))])
  | .paragraph ls => decide (ContentReads ls [.span (.text (joinWith ['\n'] ls))])
  | _ => true

theorem textOnly_content {links : LinkMap} {b : CoreBlock} (h : textOnly b = true) : HasContent links b := by
  cases b with
  | heading _ ls => exact ⟨_, of_decide_eq_true h, fun t ht => absurd ht (by simp)⟩
  | paragraph ls => exact ⟨_, of_decide_eq_true h, fun t ht => absurd ht (by simp)⟩
  | code _ _ => trivial
  | rule => trivial
  | definition _ _ => trivial

theorem content_textOnly {links : LinkMap} {bs : List CoreBlock} (h : bs.all textOnly = true) : ∀ b ∈ bs, HasContent links b :=
  fun b hb => textOnly_content (List.all_eq_true.1 h b hb)

/-- All but one block have plain text. -/
theorem content_but {links : LinkMap} {bs : List CoreBlock} {c : CoreBlock} (hc : HasContent links c) (h : bs.all (fun b => decide (b = c) || textOnly b) = true) :
    ∀ b ∈ bs, HasContent links b := by
  intro b hb
  have := List.all_eq_true.1 h b hb
  rw [Bool.or_eq_true] at this
  rcases this with e | e
  · rw [of_decide_eq_true e]; exact hc
  · exact textOnly_content e

end Hongdown.Spec
