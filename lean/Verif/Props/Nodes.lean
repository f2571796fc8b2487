import Verif.Props.Directive
import Verif.Model.Document

/-!
# The kinds of nodes that the statements on documents tell apart

`Verif.Spec.Document` speaks of directives, headings, footnote definitions, HTML blocks and front
matter. These theorems say which nodes of the tree those are.
-/

namespace Hongdown.Props
open Model Spec

/-- **C25.** The directives are the HTML blocks whose text is a comment with the words of one. -/
theorem c25_node_directive (n : Node) (d : Directive) :
    n.directive = some d ↔ ∃ literal p cs body, n = .mk (.htmlBlock literal) p cs ∧
      trim literal = "<!--".toList ++ body ++ "-->".toList ∧ Says (trim body) d := by
  obtain ⟨v, p, cs⟩ := n
  constructor
  · intro h
    cases v with
    | htmlBlock literal =>
      obtain ⟨body, h1, h2⟩ := (c23_parse literal d).mp h
      exact ⟨literal, p, cs, body, rfl, h1, h2⟩
    | _ => cases h
  · rintro ⟨literal, q, ds, body, e, h1, h2⟩
    cases e
    exact (c23_parse literal d).mpr ⟨body, h1, h2⟩

/-- **C25.** The headings, with their levels. -/
theorem c25_node_heading (n : Node) (l : Nat) :
    n.headingLevel = some l ↔ ∃ p cs, n = .mk (.heading l) p cs := by
  obtain ⟨v, p, cs⟩ := n
  constructor
  · intro h
    cases v with
    | heading l' => cases h; exact ⟨p, cs, rfl⟩
    | _ => cases h
  · rintro ⟨q, ds, e⟩
    cases e
    rfl

/-- **C57.** The footnote definitions. -/
theorem c57_node_footnote (n : Node) :
    n.isFootnoteDefinition = true ↔ ∃ name p cs, n = .mk (.footnoteDefinition name) p cs := by
  obtain ⟨v, p, cs⟩ := n
  constructor
  · intro h
    cases v with
    | footnoteDefinition name => exact ⟨name, p, cs, rfl⟩
    | _ => cases h
  · rintro ⟨name, q, ds, e⟩
    cases e
    rfl

/-- **C57.** The HTML blocks, with their text. -/
theorem c57_node_html (n : Node) (literal : List Char) :
    n.html? = some literal ↔ ∃ p cs, n = .mk (.htmlBlock literal) p cs := by
  obtain ⟨v, p, cs⟩ := n
  constructor
  · intro h
    cases v with
    | htmlBlock l => cases h; exact ⟨p, cs, rfl⟩
    | _ => cases h
  · rintro ⟨q, ds, e⟩
    cases e
    rfl

/-- **C57.** The HTML blocks that are moved with the trailing ones: all but the directives. -/
theorem c57_node_plain (n : Node) :
    n.isPlainHtml = true ↔ ∃ literal p cs, n = .mk (.htmlBlock literal) p cs ∧
      ¬ ∃ body d, trim literal = "<!--".toList ++ body ++ "-->".toList ∧ Says (trim body) d := by
  unfold Node.isPlainHtml
  rw [Bool.and_eq_true, Option.isSome_iff_exists, Option.isNone_iff_eq_none]
  constructor
  · rintro ⟨⟨literal, h⟩, hd⟩
    obtain ⟨p, cs, e⟩ := (c57_node_html n literal).mp h
    refine ⟨literal, p, cs, e, ?_⟩
    rintro ⟨body, d, h1, h2⟩
    have := (c25_node_directive n d).mpr ⟨literal, p, cs, body, e, h1, h2⟩
    rw [hd] at this
    cases this
  · rintro ⟨literal, p, cs, e, hd⟩
    refine ⟨⟨literal, (c57_node_html n literal).mpr ⟨p, cs, e⟩⟩, ?_⟩
    cases hn : n.directive with
    | none => rfl
    | some d =>
      obtain ⟨l', p', cs', body, e', h1, h2⟩ := (c25_node_directive n d).mp hn
      rw [e] at e'
      cases e'
      exact absurd ⟨body, d, h1, h2⟩ hd

/-- **C56.** Front matter. -/
theorem c56_node_frontMatter (n : Node) :
    n.isFrontMatter = true ↔ ∃ content p cs, n = .mk (.frontMatter content) p cs := by
  obtain ⟨v, p, cs⟩ := n
  constructor
  · intro h
    cases v with
    | frontMatter content => exact ⟨content, p, cs, rfl⟩
    | _ => cases h
  · rintro ⟨content, q, ds, e⟩
    cases e
    rfl

example : (Node.mk (.htmlBlock " <!-- hongdown-disable -->\n".toList) ⟨1, 1, 1, 20⟩ []).directive = some .disable ∧
    (Node.mk (.htmlBlock "<!-- hongdown-disabled -->".toList) ⟨1, 1, 1, 20⟩ []).isPlainHtml = true ∧
    (Node.mk (.heading 3) ⟨1, 1, 1, 20⟩ []).headingLevel = some 3 := by decide +kernel

end Hongdown.Props
