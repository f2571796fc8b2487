import Verif.Spec.Abbreviation
import Verif.Props.Document
import Verif.Props.Source
import Verif.Props.Quote

/-!
# Definitions of abbreviations: C102 (STYLE.md:561-569)
-/

namespace Hongdown.Props
open Model Spec

/-- What is written for such a paragraph. -/
theorem abbreviation_text {cx : Cx} (hs : SourceLines cx) {A : List Node} {n : Node} {t text : List Char} {nb : Bool}
    (hn : AbbreviationAt cx n t) (h : BlockText cx A n nb text) : text = t ++ ['\n'] := by
  obtain ⟨⟨⟨name, meaning, ht⟩, hl⟩, before, after, children, hj, rfl⟩ := hn
  have he := c75_extract cx before t after hs.1 hs.2 hj
  rcases h with ⟨rfl, _⟩ | ⟨s, _, h2, rfl⟩
  · have htr : trim t = t := trim_of_ends (by
      rw [ht]; intro c hc
      have : c = '*' := by simpa [eq_comm] using hc
      rw [this]; decide) (fun c hc => hl c hc)
    rw [formatted, ser, dispatch, serParagraph, abbreviationDef, he]
    simp only
    rw [htr, if_pos]
    · simp [St.push]
    · rw [Bool.and_eq_true]
      refine ⟨?_, ?_⟩
      · rw [ht]; rfl
      · rw [ht, List.append_assoc]; exact containsSub_append _ _ _
  · have h2' : extractSource cx ⟨lineAfter before, bytesAfter before + 1, lineAfter (before ++ t),
      bytesAfter (before ++ t)⟩ = some s := h2
    rw [he, Option.some.injEq] at h2'
    rw [h2']

theorem abbreviation_block {cx : Cx} {n : Node} {t : List Char} (hn : AbbreviationAt cx n t) :
    isTextBlock n = true ∧ n.isPlainHtml = false ∧ n.isFootnoteDefinition = false ∧ n.headingLevel = none := by
  obtain ⟨_, _, _, _, _, rfl⟩ := hn
  exact ⟨rfl, rfl, rfl, rfl⟩

/-- **C102.** The definition of an abbreviation is written character for character where it stands, with no
line wrapped and nothing escaped, whatever the options and the directives before it. -/
theorem c102_kept (cx : Cx) (hs : SourceLines cx) (p : Pos) (A B : List Node) (n : Node) (t : List Char)
    (hn : AbbreviationAt cx n t) (hw : wellPlacedDoc (A ++ n :: B) = true)
    (hd : ∀ m ∈ A, m.directive ≠ some .disableFile) :
    ∃ X Y, (formatDoc cx (.mk .document p (A ++ n :: B))).output = X ++ gapBetween A n ++ t ++ ['\n'] ++ Y := by
  obtain ⟨h1, h2, h3, _⟩ := abbreviation_block hn
  obtain ⟨X, defs, text, Y, e, _, hb⟩ := block_at (cx := cx) (p := p) hw h1 ⟨n, by simp, h2, h3⟩ hd
  exact ⟨X ++ defs, Y, by rw [e, abbreviation_text hs hn hb]; simp⟩

theorem layout_abbreviations {cx : Cx} (hs : SourceLines cx) : ∀ (L : List (Node × List Char)) {out t : List Char}
    {before : List Node}, (∀ x ∈ L, AbbreviationAt cx x.1 x.2) → Layout cx [] out before (L.map (·.1)) t →
    (∃ b, before.getLast? = some b ∧ b.isFrontMatter = false) →
    ∃ defs, t = L.flatMap (fun x => '\n' :: x.2 ++ ['\n']) ++ defs ∧
      Definitions cx (out ++ L.flatMap (fun x => '\n' :: x.2 ++ ['\n'])) defs
  | [], out, t, before, _, h, _ => by
    cases h with
    | done _ defs html _ h1 h2 =>
      rcases h2 with ⟨_, rfl⟩ | ⟨h2, _⟩
      · exact ⟨defs, by simp, by simpa using h1⟩
      · exact absurd rfl h2
  | x :: L, out, t, before, hL, h, ⟨b, hb, hf⟩ => by
    have hx := hL x (by simp)
    obtain ⟨h1, h2, h3, h4⟩ := abbreviation_block hx
    have hdir : x.1.directive = none := by
      rw [isTextBlock, Bool.and_eq_true] at h1
      simpa using h1.1
    cases h with
    | hidden _ _ _ _ _ hf h' => rw [h3] at hf; cases hf
    | file _ defs _ _ _ literal hd _ _ => rw [hdir] at hd; cases hd
    | directive _ defs t' _ _ _ literal h1 _ _ _ _ => rw [hdir] at h1; cases h1
    | block _ defs text t' _ _ _ _ hdf hbt hl =>
      have hw : writesDefinitions before x.1 = false := by
        rw [writesDefinitions, hdir]; simp [h4]
      rw [hw] at hdf
      simp only [Bool.false_eq_true, if_false] at hdf
      subst hdf
      have hg : gapBetween before x.1 = ['\n'] := by
        rw [gapBetween, hb]; simp [hf, h4]
      have htx := abbreviation_text hs hx hbt
      rw [hg, htx] at hl
      obtain ⟨defs, e1, e2⟩ := layout_abbreviations hs L (fun y hy => hL y (by simp [hy])) hl
        ⟨x.1, by simp, by obtain ⟨_, _, _, _, _, e⟩ := hx; rw [e]; rfl⟩
      refine ⟨defs, ?_, ?_⟩
      · rw [hg, htx, e1]; simp
      · simpa using e2

/-- **C102 (partial).** Full statement: wherever the definitions stand in the source (`c102_end_false`). If they
are the last blocks of the document, they are at the end of the output in their order, one blank line apart,
and only footnotes and link definitions come after them. -/
theorem c102_end_partial (cx : Cx) (hs : SourceLines cx) (p : Pos) (A : List Node) (a : Node)
    (L : List (Node × List Char)) (hL : ∀ x ∈ L, AbbreviationAt cx x.1 x.2) (h0 : L ≠ [])
    (hw : wellPlacedDoc (A ++ a :: L.map (·.1)) = true) (ha : a.isFrontMatter = false)
    (hd : ∀ m ∈ A ++ [a], m.directive ≠ some .disableFile) :
    ∃ X defs, (formatDoc cx (.mk .document p (A ++ a :: L.map (·.1)))).output =
        X ++ L.flatMap (fun x => '\n' :: x.2 ++ ['\n']) ++ defs ∧
      Definitions cx (X ++ L.flatMap (fun x => '\n' :: x.2 ++ ['\n'])) defs := by
  have ht : Trailing (A ++ a :: L.map (·.1)) (A ++ a :: L.map (·.1)) [] := by
    refine ⟨by simp, by simp, fun n hn => ?_⟩
    obtain ⟨M, x, rfl⟩ := List.eq_nil_or_concat L |>.resolve_left h0
    have : n = x.1 := by simpa [List.getLast?_append, List.getLast?_cons, eq_comm] using hn
    rw [this]
    obtain ⟨_, h2, h3, _⟩ := abbreviation_block (hL x (by simp))
    exact ⟨h2, h3⟩
  have hl := c25_layout cx p _ _ _ hw ht
  cases L with
  | nil => exact absurd rfl h0
  | cons x L =>
    have hl' : Layout cx [] [] [] ((A ++ [a]) ++ x.1 :: L.map (·.1)) (formatDoc cx (.mk .document p (A ++ a :: (x :: L).map (·.1)))).output := by
      simpa using hl
    obtain ⟨X, t', e, h2⟩ := layout_at (A ++ [a]) hl' hd
    obtain ⟨defs, e1, e2⟩ := layout_abbreviations hs (x :: L) hL h2 ⟨a, by simp, ha⟩
    exact ⟨X, defs, by rw [e, e1, List.append_assoc], by simpa using e2⟩

/-- The example of the style guide, with a second definition and a link. -/
def exAbbr : Cx := withSource codeCx
  "The HTML of [W3C].\n\n*[HTML]: HyperText   Markup\n  Language *x* _y_\n\n*[W3C]: World \"Wide\" Web\n\n[W3C]: https://w3.org\n".toList

/-- Its first definition. -/
def exAbbr1 : Node := .mk .paragraph ⟨3, 1, 4, 18⟩ [exText "*[HTML]: HyperText Markup Language x y"]

/-- Its second definition. -/
def exAbbr2 : Node := .mk .paragraph ⟨6, 1, 6, 24⟩ [exText "*", exLink "W3C" "https://w3.org", exText ": World \"Wide\" Web"]

example : ∃ X defs, (formatDoc exAbbr (exDoc [exPar [exText "The HTML of ", exLink "W3C" "https://w3.org", exText "."],
      exAbbr1, exAbbr2])).output = X ++ "\n*[HTML]: HyperText   Markup\n  Language *x* _y_\n\n*[W3C]: World \"Wide\" Web\n".toList ++ defs ∧
    Definitions exAbbr (X ++ "\n*[HTML]: HyperText   Markup\n  Language *x* _y_\n\n*[W3C]: World \"Wide\" Web\n".toList) defs :=
  c102_end_partial exAbbr ⟨by decide +kernel, by decide +kernel⟩ ⟨1, 1, 1, 1⟩ [] _
    [(exAbbr1, "*[HTML]: HyperText   Markup\n  Language *x* _y_".toList), (exAbbr2, "*[W3C]: World \"Wide\" Web".toList)]
    (by
      intro x hx
      rcases List.mem_cons.mp hx with rfl | hx
      · exact ⟨⟨⟨"HTML".toList, " HyperText   Markup\n  Language *x* _y_".toList, by decide +kernel⟩, by
            intro c hc
            have : c = '_' := by
              rw [show ("*[HTML]: HyperText   Markup\n  Language *x* _y_".toList).getLast? = some '_' by decide +kernel] at hc
              cases hc; rfl
            rw [this]; decide⟩,
          "The HTML of [W3C].\n\n".toList, "\n\n*[W3C]: World \"Wide\" Web\n\n[W3C]: https://w3.org".toList, _,
          by decide +kernel, by
            rw [show lineAfter "The HTML of [W3C].\n\n".toList = 3 by decide +kernel]
            rw [show bytesAfter "The HTML of [W3C].\n\n".toList = 0 by decide +kernel]
            rw [show lineAfter ("The HTML of [W3C].\n\n".toList ++ "*[HTML]: HyperText   Markup\n  Language *x* _y_".toList) = 4 by decide +kernel]
            rw [show bytesAfter ("The HTML of [W3C].\n\n".toList ++ "*[HTML]: HyperText   Markup\n  Language *x* _y_".toList) = 18 by decide +kernel]
            rfl⟩
      · rcases List.mem_singleton.mp hx with rfl
        exact ⟨⟨⟨"W3C".toList, " World \"Wide\" Web".toList, by decide +kernel⟩, by
            intro c hc
            have : c = 'b' := by
              rw [show ("*[W3C]: World \"Wide\" Web".toList).getLast? = some 'b' by decide +kernel] at hc
              cases hc; rfl
            rw [this]; decide⟩,
          "The HTML of [W3C].\n\n*[HTML]: HyperText   Markup\n  Language *x* _y_\n\n".toList, "\n\n[W3C]: https://w3.org".toList, _,
          by decide +kernel, by
            rw [show lineAfter "The HTML of [W3C].\n\n*[HTML]: HyperText   Markup\n  Language *x* _y_\n\n".toList = 6 by decide +kernel]
            rw [show bytesAfter "The HTML of [W3C].\n\n*[HTML]: HyperText   Markup\n  Language *x* _y_\n\n".toList = 0 by decide +kernel]
            rw [show lineAfter ("The HTML of [W3C].\n\n*[HTML]: HyperText   Markup\n  Language *x* _y_\n\n".toList ++ "*[W3C]: World \"Wide\" Web".toList) = 6 by decide +kernel]
            rw [show bytesAfter ("The HTML of [W3C].\n\n*[HTML]: HyperText   Markup\n  Language *x* _y_\n\n".toList ++ "*[W3C]: World \"Wide\" Web".toList) = 24 by decide +kernel]
            rfl⟩)
    (by simp) (by decide +kernel) rfl (by decide +kernel)

theorem stripped_trim {src t : List Char} (h : Stripped src t) : trim src = t := by
  obtain ⟨⟨a, b, rfl, hw⟩, h1, h2⟩ := h
  have ha : ∀ c ∈ a, isWs c = true := fun c hc => hw c (by simp [hc])
  have hb : ∀ c ∈ b, isWs c = true := fun c hc => hw c (by simp [hc])
  rw [trim, trimStart, List.append_assoc, List.dropWhile_append_of_pos ha]
  cases t with
  | nil =>
    rw [List.nil_append, show b.dropWhile isWs = [] by
      have := List.dropWhile_append_of_pos (l₂ := []) hb
      simpa using this]
    rfl
  | cons c t =>
    rw [List.cons_append, List.dropWhile_cons_of_neg (by simp [h1 c rfl]), ← List.cons_append, trimEnd, List.reverse_append,
      List.dropWhile_append_of_pos (fun c hc => hb c (List.mem_reverse.mp hc))]
    have := trimEnd_of_getLast (s := c :: t) (fun x hx => h2 x hx)
    rwa [trimEnd] at this

theorem abbreviation_iff (t : List Char) : (['*', '['].isPrefixOf t && containsSub [']', ':'] t) = true ↔
    ∃ name meaning, t = "*[".toList ++ name ++ "]:".toList ++ meaning := by
  rw [Bool.and_eq_true]
  constructor
  · rintro ⟨h1, h2⟩
    obtain ⟨u, rfl⟩ := List.isPrefixOf_iff_prefix.mp h1
    obtain ⟨a, b, h⟩ := containsSub_of_infix (by simp) h2
    match a, h with
    | [], h => simp at h
    | [x], h => simp at h
    | x :: y :: a, h =>
      simp only [List.cons_append, List.nil_append, List.cons.injEq] at h
      exact ⟨a, b, by rw [← h.2.2]; simp⟩
  · rintro ⟨name, meaning, rfl⟩
    exact ⟨rfl, by rw [List.append_assoc]; exact containsSub_append _ _ _⟩

/-- **C102.** Which paragraphs are kept like that: those whose text in the source, without the white space around it,
begins with `*[` and has `]:` after it. Of those nothing else is written and no link is defined. All others are
formatted like any text. -/
theorem c102_which (cx : Cx) (q : Pos) (is : List Node) (nb : Bool) (st : St) (src t : List Char)
    (hx : extractSource cx q = some src) (ht : Stripped src t) :
    ((∃ name meaning, t = "*[".toList ++ name ++ "]:".toList ++ meaning) →
      (ser cx (.mk .paragraph q is) nb st).output = st.output ++ t ++ ['\n'] ∧
      (ser cx (.mk .paragraph q is) nb st).pendingReferences = st.pendingReferences) ∧
    ((¬ ∃ name meaning, t = "*[".toList ++ name ++ "]:".toList ++ meaning) → st.listType = none → st.inBlockQuote = false →
      (ser cx (.mk .paragraph q is) nb st).output =
        st.output ++ wrapText cx.width (collectInlines cx is).1 [] cx.opts.lineWidth ++ ['\n']) := by
  rw [← abbreviation_iff]
  have htr := stripped_trim ht
  refine ⟨fun h => ?_, fun h hl hq => ?_⟩
  · rw [ser, dispatch, serParagraph, abbreviationDef, hx]
    simp only
    rw [htr, if_pos h]
    exact ⟨by simp [St.push], rfl⟩
  · rw [ser, dispatch, serParagraph, abbreviationDef, hx]
    simp only
    rw [htr, if_neg h]
    have e1 : (addReferences st (collectInlines cx is).2).listType = none :=
      (ctx_eq (addReferences_keep st _).2).2.1.trans hl
    have e2 : (addReferences st (collectInlines cx is).2).inBlockQuote = false :=
      (ctx_eq (addReferences_keep st _).2).2.2.2.1.trans hq
    simp only [serKids_nodes, e1, quotePrefix, e2, St.push, Option.isSome_none, Bool.false_eq_true, if_false,
      (addReferences_keep st _).1, List.append_assoc]

/-- A definition with white space before it, and a text without the colon. -/
def exAbbrWhich : Cx := withSource codeCx "  *[A]: b_c\n\n*[A] b_c\n".toList

example : Stripped "  *[A]: b_c".toList "*[A]: b_c".toList ∧ extractSource exAbbrWhich ⟨1, 1, 1, 11⟩ = some "  *[A]: b_c".toList :=
  ⟨⟨⟨"  ".toList, [], by decide +kernel, by decide +kernel⟩, by decide +kernel, by decide +kernel⟩, by decide +kernel⟩
example : (ser exAbbrWhich (.mk .paragraph ⟨1, 1, 1, 11⟩ [exText "*[A]: b_c"]) false {}).output = "*[A]: b_c\n".toList := by
  decide +kernel
example : (ser exAbbrWhich (.mk .paragraph ⟨3, 1, 3, 8⟩ [exText "*[A] b_c"]) false {}).output = "\\*[A] b\\_c\n".toList := by
  decide +kernel

/-- A definition before another paragraph. -/
def exAbbrFirst : Cx := withSource codeCx "*[A]: b\n\nText\n".toList

theorem exAbbrFirst_at : AbbreviationAt exAbbrFirst (.mk .paragraph ⟨1, 1, 1, 7⟩ [exText "*[A]: b"]) "*[A]: b".toList :=
  ⟨⟨⟨['A'], [' ', 'b'], by decide⟩, by
      intro c hc
      rw [show ("*[A]: b".toList).getLast? = some 'b' by decide] at hc
      cases hc; decide⟩,
    [], "\n\nText".toList, _, by decide +kernel, rfl⟩

/-- **C102 is false** for a definition before other blocks: it is not moved to the end of the document. -/
theorem c102_end_false : ¬ ∀ (cx : Cx) (p : Pos) (A B : List Node) (n : Node) (t : List Char), SourceLines cx →
    AbbreviationAt cx n t → wellPlacedDoc (A ++ n :: B) = true → (∀ m ∈ A ++ n :: B, m.directive = none) →
    noteFreeList (A ++ n :: B) = true → namedRefs cx (A ++ n :: B) = [] →
    t ++ ['\n'] <:+ (formatDoc cx (.mk .document p (A ++ n :: B))).output := by
  intro h
  exact absurd (h exAbbrFirst ⟨1, 1, 3, 4⟩ [] [exLine "Text" 3] _ _ ⟨by decide +kernel, by decide +kernel⟩ exAbbrFirst_at
    (by decide +kernel) (by decide +kernel) (by decide +kernel) (by decide +kernel)) (by decide +kernel)

/-- A paragraph that begins like a definition and uses a link definition. -/
def exAbbrLink : Cx := withSource codeCx "*[A]: see [B]\n\n[B]: https://x.y\n".toList

theorem exAbbrLink_at : AbbreviationAt exAbbrLink (.mk .paragraph ⟨1, 1, 1, 13⟩ [exText "*[A]: see ", exLink "B" "https://x.y"])
    "*[A]: see [B]".toList :=
  ⟨⟨⟨['A'], " see [B]".toList, by decide⟩, by
      intro c hc
      rw [show ("*[A]: see [B]".toList).getLast? = some ']' by decide +kernel] at hc
      cases hc; decide⟩,
    [], "\n\n[B]: https://x.y".toList, _, by decide +kernel, rfl⟩

/-- **C102 is false** for the links in a definition: the text `[B]` is kept, but not the definition of the link,
whose address is lost. -/
theorem c102_link_false : ¬ ∀ (cx : Cx) (p q r : Pos) (A B is : List Node) (t url : List Char) (title : List Char) (ls : List Node),
    SourceLines cx → AbbreviationAt cx (.mk .paragraph q is) t → .mk (.link url title) r ls ∈ is →
    wellPlacedDoc (A ++ .mk .paragraph q is :: B) = true → (∀ m ∈ A ++ .mk .paragraph q is :: B, m.directive = none) →
    url <:+: (formatDoc cx (.mk .document p (A ++ .mk .paragraph q is :: B))).output := by
  intro h
  exact absurd (h exAbbrLink ⟨1, 1, 3, 16⟩ _ _ [] [] _ _ "https://x.y".toList [] _ ⟨by decide +kernel, by decide +kernel⟩ exAbbrLink_at
    (List.mem_cons_of_mem _ (List.mem_singleton.mpr rfl)) (by decide +kernel) (by decide +kernel)) (by decide +kernel)

/-- A definition in a block quote. -/
def exAbbrQuote : Cx := withSource codeCx "> *[A]: b\n".toList

/-- **C49.** False for definitions of abbreviations: they have no marker and so leave the quote. -/
theorem c49_abbreviation_false : ¬ ∀ (cx : Cx) (p q : Pos) (is : List Node) (t : List Char), SourceLines cx →
    AbbreviationAt cx (.mk .paragraph q is) t →
    Prefixed ['>'] (ser cx (.mk .blockQuote p [.mk .paragraph q is]) false {}).output := by
  intro h
  refine absurd (prefixed_split (h exAbbrQuote ⟨1, 1, 1, 9⟩ ⟨1, 3, 1, 9⟩ [exText "*[A]: b"] "*[A]: b".toList
    ⟨by decide +kernel, by decide +kernel⟩ ⟨exAbbrFirst_at.1, "> ".toList, [], _, by decide +kernel, rfl⟩)) (by decide +kernel)

end Hongdown.Props
