import Verif.Spec.Section
import Verif.Model.Inline

/-!
# The references which links stand for
-/

namespace Hongdown.Spec
open Model

/-- The label under which the link or image with this source is registered: the text for
`[text][]` and `[text]`, else the label. -/
def registeredLabel (cx : Cx) (p : Pos) : Option (List Char) :=
  (referenceStyleInfo cx p).map fun tl => (stripPrefix? [collapsedMark] tl.2).getD tl.2

/-- Does some link of a paragraph or of the text of a link register this reference? A link
or image whose source has reference style registers its label, a link to an external URL
which is no autolink and has no image registers its text. -/
inductive Registers (cx : Cx) : Node → Ref → Prop where
  | link (url title : List Char) (p : Pos) (cs : List Node) (l : List Char) :
      registeredLabel cx p = some l → Registers cx (.mk (.link url title) p cs) ⟨l, url, title⟩
  | image (url title : List Char) (p : Pos) (cs : List Node) (l : List Char) :
      registeredLabel cx p = some l → Registers cx (.mk (.image url title) p cs) ⟨l, url, title⟩
  | external (url title : List Char) (p : Pos) (cs : List Node) :
      registeredLabel cx p = none → isExternalUrl url = true → cs.any Node.isImage = false →
      ¬ (title = [] ∧ rawTexts cs = url) →
      Registers cx (.mk (.link url title) p cs) ⟨softToSpace (collectInlines cx cs).1, url, title⟩

/-- The references that may be defined for this node: a link or an image whose source has reference style defines
its label, any other link to an external address its text. Where the link stands decides how its text is
written: in a paragraph, or in a heading, where it is not formatted at all. -/
def namesOf (cx : Cx) (n : Node) : List Ref :=
  match n.value with
  | .link url title =>
    match registeredLabel cx n.pos with
    | some l => [⟨l, url, title⟩]
    | none => if isExternalUrl url then
        [(collectInlines cx n.children).1, (collectTexts cx n.children).1, rawTexts n.children].map
          fun s => ⟨softToSpace s, url, title⟩
      else []
  | .image url title => (registeredLabel cx n.pos).toList.map fun l => ⟨l, url, title⟩
  | _ => []

/-- The references that may be defined for these nodes and those inside them. -/
def namedRefs (cx : Cx) (cs : List Node) : List Ref := (preorderList cs).flatMap (namesOf cx)

end Hongdown.Spec
