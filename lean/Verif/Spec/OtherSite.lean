import Verif.Spec.Marks

/-!
# Documents with links to other sites

The same document, but with its inline links to other sites replaced by references.
-/

namespace Hongdown.Spec
open Model

/-- A link to another site loses its address. -/
def asReference : Run → Run
  | .direct false t url => if external url then .link t else .direct false t url
  | r => r

/-- The lines written again without the addresses of other sites. -/
def ReferenceLines (ls ls' : List (List Char)) : Prop :=
  ∃ a, ContentReads ls a ∧ ls' = splitOn '\n' (runsText (a.map asReference))

def ReferenceBlock : CoreBlock → CoreBlock → Prop
  | .heading level ls, .heading level' ls' => level = level' ∧ ReferenceLines ls ls'
  | .paragraph ls, .paragraph ls' => ReferenceLines ls ls'
  | .code info ls, .code info' ls' => info = info' ∧ ls = ls'
  | .rule, .rule => True
  | .definition label target, .definition label' target' => label = label' ∧ target = target'
  | _, _ => False

/-- The block has a link to another site with the text and the address. -/
def LeadsTo (t url : List Char) : CoreBlock → Prop
  | .heading _ ls => ∃ a, ContentReads ls a ∧ .direct false t url ∈ a ∧ external url
  | .paragraph ls => ∃ a, ContentReads ls a ∧ .direct false t url ∈ a ∧ external url
  | _ => False

/-- Links to other sites with the same text, up to case, have the same address, and so do definitions with
that label. -/
def OneAddress (bs : List CoreBlock) : Prop :=
  ∀ b ∈ bs, ∀ t url, LeadsTo t url b →
    (∀ c ∈ bs, ∀ t' url', LeadsTo t' url' c → foldLabel t' = foldLabel t → url' = url) ∧
    ∀ label target, (label, target) ∈ definitions bs → foldLabel label = foldLabel t → target = (url, [])

/-- The lines of a block are lines of words. -/
def WordLines : CoreBlock → Prop
  | .heading _ ls => ∀ l ∈ ls, TextLine l
  | .paragraph ls => ∀ l ∈ ls, TextLine l
  | _ => True

/-- What is needed of the blocks: without the addresses, their lines are still lines of words, and
no marks are to be replaced in links and images, headings have a width, info strings can stand after the fence. -/
def BlockSites (cx : Cx) (b : CoreBlock) : Prop := ∀ b', ReferenceBlock b b' → WordLines b' ∧ BlockMarks cx b'

end Hongdown.Spec
