import Verif.Lemmas.Underscores
import Verif.Spec.Underscores
import Verif.Props.Wrap
import Verif.Props.Lists

/-!
# C108: underscores of text are always escaped

STYLE.md:119-127: "Underscores in regular text are always escaped, even in the middle of words".
-/

namespace Hongdown.Props
open Model Spec

/-- **C108.** Whatever a text node says, wherever it is taken from and whatever stands there in the source: in what is written
for it no underscore, asterisk, backquote or backslash is left unescaped. -/
theorem c108_text (cx : Cx) (t : List Char) (p : Pos) :
    ∀ c ∈ liveChars (textNode cx t p), c ≠ '_' ∧ c ≠ '*' ∧ c ≠ '`' ∧ c ≠ '\\' := fun c hc =>
  have ⟨h1, h2, h3, h4⟩ := (escaped_textNode cx t p).live c hc
  ⟨h2, h1, h4, h3⟩

/-- **C108.** The same of everything that is collected for text and line breaks. -/
theorem escaped_inlines (cx : Cx) : ∀ cs : List Node, (∀ n ∈ cs, textOrBreak n = true) → EscapedText (collectInlines cx cs).1
  | [], _ => by rw [collectInlines]; exact .nil
  | n :: cs, h => by
    rw [collectInlines]
    refine EscapedText.append ?_ (escaped_inlines cx cs fun m hm => h m (.tail _ hm))
    have hn := h n (.head _)
    obtain ⟨v, p, ks⟩ := n
    match v, hn with
    | .text t, _ => rw [collectInline]; exact escaped_textNode cx _ p
    | .softBreak, _ => rw [collectInline]; exact .char (by decide) .nil
    | .lineBreak, _ => rw [collectInline]; exact .char (by decide) .nil

theorem words_joinHard : ∀ ls : List (List Char), words (joinWith "  \n".toList ls) = ls.flatMap words
  | [] => rfl
  | [l] => by simp [joinWith]
  | l :: m :: ls => by
    have e : joinWith "  \n".toList (l :: m :: ls) = l ++ ("  \n".toList ++ joinWith "  \n".toList (m :: ls)) := by
      simp [joinWith]
    have hsep : ∀ c ∈ "  \n".toList, isSep c := by
      intro c hc
      have : c = ' ' ∨ c = '\n' := by simpa using hc
      rcases this with rfl | rfl
      · exact isSep_space
      · exact isSep_nl
    rw [e, ← List.append_assoc, words_append_seps_mid hsep (by decide), words_joinHard (m :: ls)]; rfl

/-- **C108 (partial).** Full statement: for all text, see `c108_heading_link_false` and `c108_reference_false`. In a paragraph of
text and line breaks that stands by itself, after all wrapping, no word has an underscore that is not escaped. -/
theorem c108_paragraph_partial (cx : Cx) (p : Pos) (cs : List Node) (nb : Bool) (st : St) (hc : ∀ n ∈ cs, textOrBreak n = true)
    (ha : NoAbbreviation cx p) (hl : st.listType = none) (hq : st.inBlockQuote = false)
    (hs : ∀ s ∈ splitOn '\n' (collectInlines cx cs).1, SoftOk s) :
    ∃ t, (ser cx (.mk .paragraph p cs) nb st).output = st.output ++ t ∧ ∀ w ∈ words t, ∀ c ∈ liveChars w, c ≠ '_' := by
  have hesc := escaped_inlines cx cs hc
  obtain ⟨outs, e1, e2, _⟩ := c13_hard_breaks cx.width (collectInlines cx cs).1 [] cx.opts.lineWidth (by simp) hs
  refine ⟨wrapText cx.width (collectInlines cx cs).1 [] cx.opts.lineWidth ++ ['\n'], ?_, ?_⟩
  · rw [ser, dispatch, serKids_nodes, serParagraph, abbreviation_none ha]
    obtain ⟨e0, e⟩ := addReferences_keep st (collectInlines cx cs).2
    obtain ⟨_, h2, _, h4, _⟩ := ctx_eq e
    simp only
    rw [h2, hl]
    simp only [Option.isSome_none, Bool.false_eq_true, if_false, St.push, e0, quotePrefix, h4, hq]
  · intro w hw
    have hw : w ∈ words (collectInlines cx cs).1 := by
      rw [words_append_seps (fun c hc => by have : c = '\n' := by simpa using hc
                                            subst this; exact isSep_nl), e1, words_joinHard] at hw
      rw [← words_splitOn isSep_nl, List.flatMap_def, ← e2, ← List.flatMap_def]
      exact hw
    exact fun c hc => ((escaped_words hesc w hw).live c hc).2.1

/-- STYLE.md:124. -/
example : (formatDoc codeCx (exDoc [exPar [exText "Use the CONFIG_FILE_NAME constant."]])).output =
    "Use the CONFIG\\_FILE\\_NAME constant.\n".toList := by decide +kernel
example : textOrBreak (exText "a_b") = true := by decide
/-- References of the source are kept. -/
example : escapeTextPreservingSource (fun n => if n = "lowbar".toList then some '_' else none) "a_b_c".toList "a&lowbar;b_c".toList =
    "a&lowbar;b\\_c".toList := by decide +kernel

/-- **C108 is false** of the text of links in headings, which is written without escapes. -/
theorem c108_heading_link_false : ¬ ∀ (l : Nat) (t url : List Char), (∀ c ∈ url, c.isAlpha = true) →
    ∀ w ∈ words (formatDoc codeCx (exDoc [.mk (.heading l) ⟨1, 1, 1, 1⟩ [.mk (.link url []) ⟨1, 1, 1, 1⟩
      [.mk (.text t) ⟨1, 1, 1, 1⟩ []]]])).output, ∀ c ∈ liveChars w, c ≠ '_' := by
  intro h
  have := h 3 "_x_".toList "u".toList (by decide +kernel) "[_x_](u)".toList (by decide +kernel) '_' (by decide +kernel)
  exact this rfl

/-- In a paragraph it is. -/
example : (formatDoc codeCx (exDoc [exPar [.mk (.link "u".toList []) ⟨1, 1, 1, 1⟩ [exText "_x_"]],
    .mk (.heading 3) ⟨1, 1, 1, 1⟩ [.mk (.link "u".toList []) ⟨1, 1, 1, 1⟩ [exText "_x_"]]])).output =
    "[\\_x\\_](u)\n\n### [_x_](u)\n".toList := by decide +kernel

/-- The source `See [t].` with a definition of `t`, and its tree. -/
def referenceOutput (t : List Char) : List Char :=
  let src := "See [".toList ++ t ++ "].\n\n[".toList ++ t ++ "]: https://x.org/\n".toList
  let n := t.length
  (formatDoc (withSource codeCx src) (.mk .document ⟨1, 1, 3, n + 18⟩ [.mk .paragraph ⟨1, 1, 1, n + 7⟩
    [.mk (.text "See ".toList) ⟨1, 1, 1, 4⟩ [], .mk (.link "https://x.org/".toList []) ⟨1, 5, 1, n + 6⟩
      [.mk (.text t) ⟨1, 6, 1, n + 5⟩ []], .mk (.text ['.']) ⟨1, n + 7, 1, n + 7⟩ []]])).output

/-- **C108 is false** of the text of references, which is copied from the source. -/
theorem c108_reference_false : ¬ ∀ t : List Char, (∀ c ∈ t, c.isAlpha = true ∨ c = '_') → t ≠ [] →
    ∀ w ∈ words (referenceOutput t), ∀ c ∈ liveChars w, c ≠ '_' := by
  intro h
  have := h "a_b".toList (by decide +kernel) (by decide +kernel) "[a_b].".toList (by decide +kernel) '_' (by decide +kernel)
  exact this rfl

example : referenceOutput "a_b".toList = "See [a_b].\n\n[a_b]: https://x.org/\n".toList := by decide +kernel

end Hongdown.Props
