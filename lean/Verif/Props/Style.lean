import Verif.Lemmas.Style
import Verif.Lemmas.Keep
import Verif.Props.Escape
import Verif.Props.Links

/-!
# Reading link styles from the source: C74
-/

namespace Hongdown.Props
open Model Spec

/-- C74. A link or image with brackets that match in its text, followed by `(`, is no reference. -/
theorem c74_inline_partial (bang text rest : List Char) (hb : bang = [] ∨ bang = ['!']) (h : Matched text) :
    referenceStyle (bang ++ ('[' :: text ++ [']', '('] ++ rest)) = none := by
  have := referenceStyle_front bang hb text ('(' :: rest) h
  simpa [styleAfter] using this

/-- C74. Followed by a label it is a full reference with that label. -/
theorem c74_full_partial (bang text label rest : List Char) (hb : bang = [] ∨ bang = ['!']) (h : Matched text)
    (hl : ']' ∉ label) (hs : squeezed label ≠ []) :
    referenceStyle (bang ++ ('[' :: text ++ [']', '['] ++ label ++ ']' :: rest)) =
      some (squeezed text, squeezed label) := by
  have := referenceStyle_front bang hb text ('[' :: label ++ ']' :: rest) h
  have ht : (label ++ ']' :: rest).takeWhile (· ≠ ']') = label := by
    rw [List.takeWhile_append_of_pos]
    · simp
    · intro c hc; simp; rintro rfl; exact hl hc
  have hs' : normalizeWhitespace label ≠ [] := hs
  rw [show bang ++ ('[' :: text ++ [']', '['] ++ label ++ ']' :: rest) =
    bang ++ ('[' :: text ++ ']' :: ('[' :: label ++ ']' :: rest)) by simp, this]
  simp only [styleAfter, List.cons_append, List.head?_cons, Option.some.injEq, ht]
  rw [if_neg (by decide), if_pos (by simp), if_neg hs']
  rfl

/-- C74. Followed by a label of white space it is a collapsed reference. -/
theorem c74_collapsed_partial (bang text label rest : List Char) (hb : bang = [] ∨ bang = ['!']) (h : Matched text)
    (hl : ']' ∉ label) (hs : squeezed label = []) :
    referenceStyle (bang ++ ('[' :: text ++ [']', '['] ++ label ++ ']' :: rest)) =
      some (squeezed text, '\x01' :: squeezed text) := by
  have := referenceStyle_front bang hb text ('[' :: label ++ ']' :: rest) h
  have ht : (label ++ ']' :: rest).takeWhile (· ≠ ']') = label := by
    rw [List.takeWhile_append_of_pos]
    · simp
    · intro c hc; simp; rintro rfl; exact hl hc
  have hs' : normalizeWhitespace label = [] := hs
  rw [show bang ++ ('[' :: text ++ [']', '['] ++ label ++ ']' :: rest) =
    bang ++ ('[' :: text ++ ']' :: ('[' :: label ++ ']' :: rest)) by simp, this]
  simp only [styleAfter, List.cons_append, List.head?_cons, Option.some.injEq, ht]
  rw [if_neg (by decide), if_pos (by simp), if_pos hs']
  rfl

/-- C74. Followed by anything else it is a shortcut reference. -/
theorem c74_shortcut_partial (bang text rest : List Char) (hb : bang = [] ∨ bang = ['!']) (h : Matched text)
    (h1 : rest.head? ≠ some '(') (h2 : rest.head? ≠ some '[') :
    referenceStyle (bang ++ ('[' :: text ++ ']' :: rest)) = some (squeezed text, squeezed text) := by
  rw [referenceStyle_front bang hb text rest h, styleAfter, if_neg h1]
  · rfl
  · rintro r rfl; exact h2 rfl

example : referenceStyle "[see [1] in\n  the list][ The  list ]".toList =
    some ("see [1] in the list".toList, "The list".toList) :=
  c74_full_partial [] "see [1] in\n  the list".toList " The  list ".toList [] (.inl rfl) (show _ = _ by decide +kernel)
    (by decide) (by decide +kernel)

/-- C74. A link which its source writes in the inline style, to a place that is not external, is
written in that style, and gets no definition. -/
theorem c74_kept_inline (cx : Cx) (p : Pos) (url title text rest : List Char) (cs : List Node) (next : Bool)
    (hs : extractSource cx p = some ('[' :: text ++ [']', '('] ++ rest)) (h : Matched text)
    (hi : ∀ c ∈ cs, c.isImage = false) (ha : title = [] → rawTexts cs ≠ url) (hu : isExternalUrl url = false) :
    collectInline cx next (.mk (.link url title) p cs) =
      (['['] ++ (collectInlines cx cs).1 ++ [']', '('] ++ url ++
        (if title = [] then [] else [' ', '"'] ++ title ++ ['"']) ++ [')'], (collectInlines cx cs).2) := by
  have hr : referenceStyleInfo cx p = none := by
    rw [referenceStyleInfo, hs]; exact c74_inline_partial [] text rest (.inl rfl) h
  have hany : cs.any Node.isImage = false := by
    rw [List.any_eq_false]; intro c hc; simp [hi c hc]
  simp only [collectInline, hr, hany, Bool.false_eq_true, if_false, hu]
  rw [if_neg (fun h => ha h.1 h.2)]
  rfl

/-- C74. A link with a label in its source keeps text and label, and is defined with that label. -/
theorem c74_kept_full (cx : Cx) (p : Pos) (url title text label rest : List Char) (cs : List Node) (next : Bool)
    (hs : extractSource cx p = some ('[' :: text ++ [']', '['] ++ label ++ ']' :: rest)) (h : Matched text)
    (hl : ']' ∉ label) (hl' : squeezed label ≠ []) (hm : '\x01' ∉ label)
    (hne : squeezed text ≠ squeezed label) (hi : ∀ c ∈ cs, c.isImage = false) :
    collectInline cx next (.mk (.link url title) p cs) =
      (['['] ++ squeezed text ++ [']', '['] ++ squeezed label ++ [']'], [⟨squeezed label, url, title⟩]) := by
  have hr : referenceStyleInfo cx p = some (squeezed text, squeezed label) := by
    rw [referenceStyleInfo, hs]; exact c74_full_partial [] text label rest (.inl rfl) h hl hl'
  have hany : cs.any Node.isImage = false := by
    rw [List.any_eq_false]; intro c hc; simp [hi c hc]
  have hn : ∀ a, squeezed label ≠ '\x01' :: a := by
    intro a e
    rcases mem_squeezed (e ▸ List.mem_cons_self .. : '\x01' ∈ squeezed label) with h | h
    · exact absurd h (by decide)
    · exact hm h
  simp only [collectInline, hr, hany, Bool.false_eq_true, if_false]
  rw [formatReference.eq_def]
  split
  · exact absurd (by assumption) (hn _)
  · rw [if_neg hne]; rfl

/-- C74 is false where a bracket of the text is escaped: the source reads as an inline link, yet it is
taken for a reference. -/
theorem c74_escaped_false : ¬ ∀ (source text url title rest : List Char),
    readLink source = some (text, .inline url title, rest) → referenceStyle source = none := by
  intro h
  exact absurd (h "[a\\]b](/u)".toList "a\\]b".toList "/u".toList [] [] (by decide +kernel)) (by decide +kernel)

/-- C74. Of the paragraph `[a\]b](/u)` the `b` is lost. -/
theorem c74_document_false : ¬ ∀ (source text url : String) (c : Char) (t : List Char),
    readLink source.toList = some (t, .inline url.toList [], []) → text.toList = t.filter (· ≠ '\\') →
    c ∈ text.toList → c.isAlpha = true →
    c ∈ (formatDoc { codeCx with sourceLines := [source.toList] }
      (exDoc [.mk .paragraph ⟨1, 1, 1, source.utf8ByteSize⟩ [.mk (.link url.toList []) ⟨1, 1, 1, source.utf8ByteSize⟩
        [.mk (.text text.toList) ⟨1, 2, 1, source.utf8ByteSize - 5⟩ []]]])).output := by
  intro h
  have := h "[a\\]b](/u)" "a]b" "/u" 'b' "a\\]b".toList (by decide +kernel) (by decide +kernel) (by decide +kernel)
    (by decide +kernel)
  revert this
  decide +kernel


/-! ### Inline nodes outside of paragraphs -/

/-- A text or a code span. -/
def plainInline (n : Node) : Prop := match n.value with
  | .text _ => True
  | .code _ => True
  | _ => False

theorem collectTexts_plain (cx : Cx) : ∀ cs : List Node, (∀ n ∈ cs, plainInline n) → collectTexts cx cs = collectInlines cx cs ∧
    cs.any Node.isImage = false
  | [], _ => by simp [collectTexts, collectInlines]
  | n :: ns, h => by
    obtain ⟨ih, hi⟩ := collectTexts_plain cx ns fun m hm => h m (by simp [hm])
    have hn := h n (by simp)
    obtain ⟨v, p, cs⟩ := n
    cases v <;> simp only [plainInline, Node.value] at hn <;>
      exact ⟨by rw [collectTexts, collectInlines, ih, collectText, collectInline], by rw [List.any_cons, hi]; rfl⟩

theorem addReferences_append (st : St) (a b : List Ref) : addReferences st (a ++ b) = addReferences (addReferences st a) b := by
  simp [addReferences, List.foldl_append]

theorem any_image (cx : Cx) : ∀ cs : List Node, ((serKids cx cs).any fun k => k.node.isImage) = cs.any Node.isImage
  | [] => rfl
  | n :: ns => by rw [serKids, List.any_cons, List.any_cons, any_image cx ns]

/-- C74. A link that stands outside of paragraphs is written as in a paragraph, and its references are
kept as those of a paragraph. -/
theorem c74_alone_link (cx : Cx) (url title : List Char) (p : Pos) (cs : List Node) (nextBracket : Bool) (st : St)
    (h : ∀ n ∈ cs, plainInline n) :
    ser cx (.mk (.link url title) p cs) nextBracket st =
      (addReferences st (collectInline cx nextBracket (.mk (.link url title) p cs)).2).push
        (collectInline cx nextBracket (.mk (.link url title) p cs)).1 := by
  obtain ⟨h1, h2⟩ := collectTexts_plain cx cs h
  rw [ser, dispatch, serLink, any_image, h2, collectInline]
  have hk : (serKids cx cs).map (·.node) = cs := by
    clear h h1 h2
    induction cs with
    | nil => rfl
    | cons n ns ih => rw [serKids, List.map_cons, ih]
  simp only [hk, h1, h2, Bool.false_eq_true, if_false]
  cases hr : referenceStyleInfo cx p with
  | some x => rfl
  | none =>
    simp only
    by_cases h3 : title = [] ∧ rawTexts cs = url
    · rw [if_pos h3, if_pos h3]; rfl
    · rw [if_neg h3, if_neg h3]
      cases isExternalUrl url with
      | true => simp only [if_true, addReferences_append]
      | false => rfl

example : (ser codeCx (.mk (.link "/u".toList "t".toList) ⟨1, 1, 1, 9⟩ [.mk (.text "a*b".toList) ⟨1, 2, 1, 4⟩ []]) false {}).output =
    "[a\\*b](/u \"t\")".toList := by decide +kernel

/-- C74. So is an image. -/
theorem c74_alone_image (cx : Cx) (url title : List Char) (p : Pos) (cs : List Node) (nextBracket : Bool) (st : St)
    (h : ∀ n ∈ cs, plainInline n) :
    (ser cx (.mk (.image url title) p cs) nextBracket st).output =
      st.output ++ (collectInline cx nextBracket (.mk (.image url title) p cs)).1 := by
  have hk : (serKids cx cs).map (·.node) = cs := by
    clear h
    induction cs with
    | nil => rfl
    | cons n ns ih => rw [serKids, List.map_cons, ih]
  rw [ser, dispatch, serImage, hk, (collectTexts_plain cx cs h).1, collectInline]
  cases referenceStyleInfo cx p with
  | some x =>
    show (addReferences (addReferences st _) _).output ++ _ = _
    rw [addReferences_output, addReferences_output]
  | none =>
    show (addReferences st _).output ++ _ = _
    rw [addReferences_output]

/-- C74. So is a link around an image. -/
theorem c74_alone_linked_image (cx : Cx) (url title iurl ititle : List Char) (p q : Pos) (cs : List Node) (nextBracket : Bool) (st : St)
    (h : ∀ n ∈ cs, plainInline n) :
    (ser cx (.mk (.link url title) p [.mk (.image iurl ititle) q cs]) nextBracket st).output =
      st.output ++ (collectInline cx nextBracket (.mk (.link url title) p [.mk (.image iurl ititle) q cs])).1 := by
  have hi := c74_alone_image cx iurl ititle q cs false (st.push ['[']) h
  rw [ser, dispatch, serLink, any_image, collectInline, collectInlines, collectInlines]
  have hany : [Node.mk (.image iurl ititle) q cs].any Node.isImage = true := rfl
  simp only [hany, if_true]
  cases referenceStyleInfo cx p with
  | some x =>
    show (addReferences _ [_]).output = _
    rw [addReferences_output]
    show (ser cx _ false (st.push ['['])).output ++ _ = _
    rw [hi]
    simp [St.push, Inl.append, nextIsBracket]
  | none =>
    show (ser cx _ false (st.push ['['])).output ++ _ = _
    rw [hi]
    simp [St.push, Inl.append, formatInlineLink, nextIsBracket]

/-- C74. Texts outside of paragraphs read back, code spans without a source do, and hard breaks and
references to footnotes are written as in a paragraph. Strong emphasis has two stars on both sides. -/
theorem c74_alone_text (cx : Cx) (p : Pos) (nextBracket : Bool) (st : St) :
    (∀ t cs, ∃ s, (ser cx (.mk (.text t) p cs) nextBracket st).output = st.output ++ s ∧ unescape s = t) ∧
    (∀ t cs, extractSource cx p = none → (ser cx (.mk (.code t) p cs) nextBracket st).output =
      st.output ++ (collectInline cx nextBracket (.mk (.code t) p cs)).1) ∧
    (∀ cs, (ser cx (.mk .lineBreak p cs) nextBracket st).output = st.output ++ (collectInline cx nextBracket (.mk .lineBreak p cs)).1) ∧
    (∀ name cs, (ser cx (.mk (.footnoteReference name) p cs) nextBracket st).output =
      st.output ++ (collectInline cx nextBracket (.mk (.footnoteReference name) p cs)).1) ∧
    (∀ t q, ∃ s, (ser cx (.mk .strong p [.mk (.text t) q []]) nextBracket st).output = st.output ++ (['*', '*'] ++ s ++ ['*', '*']) ∧
      unescape s = t) := by
  refine ⟨fun t cs => ⟨escapeText t, rfl, c01_escape_text_roundtrip t⟩, fun t cs hs => ?_, fun cs => by rw [collectInline]; rfl,
    fun name cs => ?_, fun t q => ⟨escapeText t, ?_, c01_escape_text_roundtrip t⟩⟩
  · rw [collectInline]
    simp only [codeNode, hs]
    rw [ser, dispatch, hs]; rfl
  · rw [collectInline, ser, dispatch]
    show (recordReferenceLine _ _ _).output ++ _ = _
    congr 1
  · show ((st.output ++ ['*', '*']) ++ escapeText t) ++ ['*', '*'] = _
    simp

end Hongdown.Props
