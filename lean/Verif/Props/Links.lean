import Verif.Lemmas.Keep
import Verif.Lemmas.Links
import Verif.Props.Refs

/-!
# C44, C45 and C71: links and emphasis
-/

namespace Hongdown.Props
open Model Spec

/-- **C44.** With an asterisk in some text below, emphasis is written with underscores; otherwise
as in the source, with asterisks if the source is not known. -/
theorem c44_emph (cx : Cx) (n : Node) :
    ((∃ t, TextBelow t n ∧ '*' ∈ t) → emphDelimiter cx n = '_') ∧
    (¬ (∃ t, TextBelow t n ∧ '*' ∈ t) →
      (∀ s, extractSource cx n.pos = some ('_' :: s) → emphDelimiter cx n = '_') ∧
      ((∀ s, extractSource cx n.pos ≠ some ('_' :: s)) → emphDelimiter cx n = '*')) := by
  rw [← nodeTextContains_iff]
  unfold emphDelimiter
  refine ⟨fun h => by rw [if_pos h], fun h => ⟨fun s hs => ?_, fun hs => ?_⟩⟩
  · rw [if_neg h, hs]; rfl
  · rw [if_neg h]
    split
    · next src e =>
      split
      · next h2 =>
        cases src with
        | nil => cases h2
        | cons a s => simp only [List.head?_cons, Option.some.injEq] at h2; subst h2; exact absurd e (hs s)
      · rfl
    · rfl

/-- **C44.** The same for strong emphasis. -/
theorem c44_strong (cx : Cx) (n : Node) :
    ((∃ t, TextBelow t n ∧ '*' ∈ t) → strongDelimiter cx n = "__".toList) ∧
    (¬ (∃ t, TextBelow t n ∧ '*' ∈ t) →
      (∀ s, extractSource cx n.pos = some ('_' :: '_' :: s) → strongDelimiter cx n = "__".toList) ∧
      ((∀ s, extractSource cx n.pos ≠ some ('_' :: '_' :: s)) → strongDelimiter cx n = "**".toList)) := by
  rw [← nodeTextContains_iff]
  unfold strongDelimiter
  refine ⟨fun h => by rw [if_pos h]; rfl, fun h => ⟨fun s hs => ?_, fun hs => ?_⟩⟩
  · rw [if_neg h, hs]; simp
  · rw [if_neg h]
    split
    · next src e =>
      split
      · next h2 =>
        rw [List.isPrefixOf_iff_prefix] at h2
        obtain ⟨s, rfl⟩ := h2
        exact absurd e (hs s)
      · rfl
    · rfl

example : emphDelimiter codeCx (.mk .emph ⟨1, 1, 1, 1⟩ [.mk .strong ⟨1, 1, 1, 1⟩ [exText "a*b"]]) = '_' ∧
    strongDelimiter { codeCx with sourceLines := ["__a__".toList] } (.mk .strong ⟨1, 1, 1, 5⟩ [exText "a"]) =
      "__".toList := by decide +kernel

/-! ### C71 -/

/-- **C71.** The claim is false: an asterisk in the text turns the emphasis in `a*b\*c*d` into
`a_b\*c_d`, which is no emphasis, as an underscore between letters does not open one. -/
theorem c71_emph_false : ¬ ∀ (cx : Cx) (before inner after : List Char) (p : Pos) (r : List Char),
    inner ≠ [] → (∀ c ∈ inner, isWs c = false) → (inner.head? ≠ some '*' ∧ inner.getLast? ≠ some '*') →
    (collectInlines cx [.mk (.text before) p [], .mk .emph p [.mk (.text inner) p []], .mk (.text after) p []]).1 = r →
    ∃ d x y z, r = x ++ d :: y ++ d :: z ∧ (d = '*' ∨ d = '_') ∧ unescape x = before ∧ unescape y = inner ∧
      unescape z = after ∧
      CanOpen isWs isAsciiPunct d x.getLast? y.head? ∧ CanClose isWs isAsciiPunct d y.getLast? z.head? := by
  intro h
  have e : (collectInlines codeCx [.mk (.text ['a']) ⟨1, 1, 1, 1⟩ [],
      .mk .emph ⟨1, 1, 1, 1⟩ [.mk (.text ['b', '*', 'c']) ⟨1, 1, 1, 1⟩ []], .mk (.text ['d']) ⟨1, 1, 1, 1⟩ []]).1 =
      ['a', '_', 'b', '\\', '*', 'c', '_', 'd'] := by decide +kernel
  obtain ⟨d, x, y, z, hr, hd, hx, hy, hz, ho, hc⟩ := h codeCx ['a'] ['b', '*', 'c'] ['d'] ⟨1, 1, 1, 1⟩ _
    (by decide) (by decide) (by decide) e
  cases x with
  | nil => cases hx
  | cons a x =>
    simp only [List.cons_append, List.cons.injEq] at hr
    obtain ⟨rfl, hr⟩ := hr
    cases x with
    | nil =>
      simp only [List.nil_append, List.cons_append, List.cons.injEq] at hr
      obtain ⟨rfl, hr⟩ := hr
      cases y with
      | nil => cases hy
      | cons b y =>
        simp only [List.cons_append, List.cons.injEq] at hr
        obtain ⟨rfl, hr⟩ := hr
        obtain ⟨_, h2⟩ := ho
        rcases h2 rfl with h2 | ⟨c, h2, h3⟩
        · exact h2 ⟨'a', rfl, by decide, .inl (by decide)⟩
        · simp only [List.getLast?_singleton, Option.some.injEq] at h2; subst h2; revert h3; decide
    | cons b x =>
      simp only [List.cons_append, List.cons.injEq] at hr
      obtain ⟨rfl, hr⟩ := hr
      rw [show unescape ('a' :: '_' :: x) = 'a' :: '_' :: unescape x by
        rw [unescape.eq_4, unescape.eq_4] <;> simp] at hx
      cases hx

/-- **C71.** It holds for asterisks, and for underscores with white space, punctuation or nothing
around them; the content begins and ends with something else. (Missing: contents beginning or
ending with punctuation, such as nested emphasis or links.) -/
theorem c71_emph_partial (ws punct : Char → Bool) (cx : Cx) (p : Pos) (cs : List Node)
    (prev next : Option Char) (a b : Char)
    (ha : (collectInlines cx cs).1.head? = some a) (hb : (collectInlines cx cs).1.getLast? = some b)
    (hwa : ws a = false) (hpa : punct a = false) (hwb : ws b = false) (hpb : punct b = false)
    (hs : ((∀ t, TextBelow t (.mk .emph p cs) → '*' ∉ t) ∧ ∀ s, extractSource cx p ≠ some ('_' :: s)) ∨
      (∀ c, prev = some c → ws c = true ∨ punct c = true) ∧ (∀ c, next = some c → ws c = true ∨ punct c = true)) :
    ∃ d y, collectInline cx false (.mk .emph p cs) = (d :: y ++ [d], (collectInlines cx cs).2) ∧
      y = (collectInlines cx cs).1 ∧ (d = '*' ∨ d = '_') ∧
      CanOpen ws punct d prev y.head? ∧ CanClose ws punct d y.getLast? next := by
  refine ⟨emphDelimiter cx (.mk .emph p cs), _, by rw [collectInline]; simp, rfl, ?_, ?_⟩
  · unfold emphDelimiter
    repeat' split
    all_goals simp
  · rw [ha, hb]
    have hl : LeftFlanking ws punct prev (some a) := ⟨a, rfl, hwa, .inl hpa⟩
    have hr : RightFlanking ws punct (some b) next := ⟨b, rfl, hwb, .inl hpb⟩
    refine ⟨⟨hl, fun hd => ?_⟩, hr, fun hd => ?_⟩
    all_goals
      rcases hs with ⟨h1, h2⟩ | ⟨h1, h2⟩
      · have := ((c44_emph cx (.mk .emph p cs)).2 (fun ⟨t, ht, hc⟩ => h1 t ht hc)).2 h2
        rw [this] at hd
        exact absurd hd (by decide)
    · cases prev with
      | none => left; rintro ⟨c, hc, _⟩; cases hc
      | some c =>
        rcases h1 c rfl with h | h
        · left; rintro ⟨c', hc, hw, _⟩; cases hc; rw [h] at hw; cases hw
        · exact .inr ⟨c, rfl, h⟩
    · cases next with
      | none => left; rintro ⟨c, hc, _⟩; cases hc
      | some c =>
        rcases h2 c rfl with h | h
        · left; rintro ⟨c', hc, hw, _⟩; cases hc; rw [h] at hw; cases hw
        · exact .inr ⟨c, rfl, h⟩

example : (collectInlines codeCx [exText "a", .mk .emph ⟨1, 1, 1, 1⟩ [exText "b"], exText "c"]).1 = "a*b*c".toList := by
  decide +kernel

/-! ### C45 -/

/-- **C45.** The text written for a reference reads as a link to the label that is registered: a
shortcut if what follows does not make it something else, other forms always. -/
theorem c45_reference (text label url title rest : List Char) (ht : plainLabel text = true)
    (hl : plainLabel label = true) (hm : label.head? ≠ some collapsedMark) :
    let full := formatReference [] text label url title
    let coll := formatReference [] text (collapsedMark :: text) url title
    full.2 = [⟨label, url, title⟩] ∧ coll.2 = [⟨text, url, title⟩] ∧
    (text ≠ label ∨ AfterShortcut rest → readLink (full.1 ++ rest) = some (text, .label label, rest)) ∧
    readLink (coll.1 ++ rest) = some (text, .label text, rest) ∧
    (full.1 = '[' :: text ++ [']'] ↔ text = label) := by
  have e : formatReference [] text label url title =
      if text = label then ('[' :: text ++ [']'], [⟨label, url, title⟩])
      else ('[' :: text ++ ']' :: '[' :: label ++ [']'], [⟨label, url, title⟩]) := by
    unfold formatReference
    split
    · exact absurd rfl hm
    · simp
  have e2 : formatReference [] text (collapsedMark :: text) url title =
      ('[' :: text ++ [']', '[', ']'], [⟨text, url, title⟩]) := by simp [formatReference, collapsedMark]
  simp only [e, e2]
  by_cases htl : text = label
  · subst htl
    simp only [if_pos, true_and, ne_eq, not_true, false_or]
    refine ⟨fun h => by simpa using readLink_shortcut ht h, by simpa using readLink_collapsed (rest := rest) ht, by simp⟩
  · simp only [if_neg htl, true_and]
    refine ⟨fun _ => by simpa using readLink_full (rest := rest) ht hl, by simpa using readLink_collapsed (rest := rest) ht, ?_⟩
    simp [htl]

/-- **C45.** The claim is false for links that were not references: `[a](http://x)(b)` becomes
`[a](b)`, a link with another target. -/
theorem c45_paren_false : ¬ ∀ (cx : Cx) (text url after : List Char) (p : Pos) (target : Target)
    (t rest : List Char), plainLabel text = true → isExternalUrl url = true →
    readLink (collectInlines cx [.mk (.link url []) p [.mk (.text text) p []], .mk (.text after) p []]).1 =
      some (t, target, rest) → target = .label text := by
  intro h
  have := h codeCx "a".toList "http://x".toList "(b)".toList ⟨1, 1, 1, 1⟩ (.inline "b".toList []) "a".toList []
    (by decide +kernel) (by decide +kernel) (by decide +kernel)
  cases this

/-- **C45.** In a whole document: the target `http://x` is no longer the target of a link. -/
theorem c45_document_false : ¬ ∀ (cx : Cx) (text url after : String) (target : Target) (t rest : List Char),
    plainLabel text.toList = true → isExternalUrl url.toList = true →
    readLink (formatDoc cx (exDoc [exPar [exLink text url, exText after]])).output = some (t, target, rest) →
    target = .label text.toList := by
  intro h
  have := h codeCx "a" "http://x" "(b)" (.inline "b".toList []) "a".toList "\n\n[a]: http://x\n".toList
    (by decide +kernel) (by decide +kernel) (by decide +kernel)
  cases this

/-- **C45.** A colon after the link at the beginning of a paragraph: `[a](http://x): b` becomes the
definition of a label, and the paragraph is gone. -/
theorem c45_definition_false : ¬ ∀ (cx : Cx) (text url after : String),
    plainLabel text.toList = true → isExternalUrl url.toList = true →
    readDefinition ((splitOn '\n' (formatDoc cx (exDoc [exPar [exLink text url, exText after]])).output).headD []) =
      none := by
  intro h
  have := h codeCx "a" "http://x" ": b" (by decide +kernel) (by decide +kernel)
  revert this
  decide +kernel

/-- **C45.** In a heading two links in a row, `# [a](http://x)[b](http://y)`, become one reference
`[a][b]`. -/
theorem c45_heading_false : ¬ ∀ (cx : Cx) (text url text' url' : String) (target : Target) (t rest : List Char),
    plainLabel text.toList = true → isExternalUrl url.toList = true →
    readLink (formatDoc cx (exDoc [.mk (.heading 1) ⟨1, 1, 1, 1⟩ [exLink text url, exLink text' url']])).output =
      some (t, target, rest) → target = .label text.toList := by
  intro h
  have := h codeCx "a" "http://x" "b" "http://y" (.label "b".toList) "a".toList
    "\n======\n\n[a]: http://x\n[b]: http://y\n".toList
    (by decide +kernel) (by decide +kernel) (by decide +kernel)
  revert this
  decide +kernel

/-- **C45.** In paragraphs, a link with an external target that was not a reference reads as a
reference to the label registered with its target, if another bracket follows (the link is then
written `[text][]`) or what follows does not change its meaning. -/
theorem c45_external_partial (cx : Cx) (p : Pos) (url title : List Char) (cs ns : List Node)
    (hs : referenceStyleInfo cx p = none) (hi : cs.any Node.isImage = false) (hu : isExternalUrl url = true)
    (ha : ¬ (title = [] ∧ rawTexts cs = url)) (hr : (collectInlines cx cs).2 = [])
    (ht : plainLabel (softToSpace (collectInlines cx cs).1) = true)
    (h : (∃ v q ds rest, ns = .mk v q ds :: rest ∧
        ((∃ n, v = .footnoteReference n) ∨ (∃ u t, v = .link u t) ∨ ∃ u t, v = .image u t)) ∨
      AfterShortcut (collectInlines cx ns).1) :
    let text := softToSpace (collectInlines cx cs).1
    readLink (collectInlines cx (.mk (.link url title) p cs :: ns)).1 =
      some (text, .label text, (collectInlines cx ns).1) ∧
    (collectInlines cx (.mk (.link url title) p cs :: ns)).2 =
      ⟨text, url, title⟩ :: (collectInlines cx ns).2 := by
  have e : collectInlines cx (.mk (.link url title) p cs :: ns) =
      (formatExternalLink (collectInlines cx cs).1 url title (nextIsBracket ns)).append (collectInlines cx ns) := by
    rw [collectInlines, collectInline]
    simp only [hs, hi, hu, if_neg ha, if_true, hr, List.nil_append, Bool.false_eq_true, if_false]
  simp only [e, formatExternalLink, Inl.append]
  refine ⟨?_, rfl⟩
  cases hb : nextIsBracket ns with
  | true => simpa using readLink_collapsed (rest := (collectInlines cx ns).1) ht
  | false =>
    rcases h with ⟨v, q, ds, rest, rfl, h⟩ | h
    · exfalso
      rcases h with ⟨n, rfl⟩ | ⟨u, t, rfl⟩ | ⟨u, t, rfl⟩ <;> cases hb
    · simpa using readLink_shortcut ht h

example : readLink (collectInlines codeCx [exLink "a" "http://x", exLink "b" "/y"]).1 =
      some ("a".toList, .label "a".toList, "[b](/y)".toList) ∧
    readLink (collectInlines codeCx [exLink "a" "http://x", exText ", b"]).1 =
      some ("a".toList, .label "a".toList, ", b".toList) := by decide +kernel

/-- **C45.** The same where inline nodes are written directly, as in the term of a description: a link with an external
target before a footnote, another link or an image reads as a reference to its text, whatever follows. -/
theorem c45_direct (cx : Cx) (p q : Pos) (url title : List Char) (cs ns : List Node) (nb : Bool) (st : St)
    (hs : referenceStyleInfo cx p = none) (hi : cs.any Node.isImage = false) (hu : isExternalUrl url = true)
    (ha : ¬ (title = [] ∧ rawTexts cs = url)) (ht : plainLabel (softToSpace (collectTexts cx cs).1) = true)
    (h : ∃ v q ds rest, ns = .mk v q ds :: rest ∧
      ((∃ n, v = .footnoteReference n) ∨ (∃ u t, v = .link u t) ∨ ∃ u t, v = .image u t)) :
    let text := softToSpace (collectTexts cx cs).1
    ∃ st' out, ser cx (.mk .descriptionTerm q (.mk (.link url title) p cs :: ns)) nb st = runKids (serKids cx ns) st' ∧
      st'.output = st.output ++ out ∧ ∀ rest, readLink (out ++ rest) = some (text, .label text, rest) := by
  have hb : nextIsBracket ns = true := by
    obtain ⟨v, q, ds, rest, rfl, h⟩ := h
    rcases h with ⟨n, rfl⟩ | ⟨u, t, rfl⟩ | ⟨u, t, rfl⟩ <;> rfl
  have hk : (serKids cx cs).any (fun k => k.node.isImage) = false := by
    rw [← serKids_nodes cx cs, List.any_map] at hi
    exact hi
  refine ⟨ser cx (.mk (.link url title) p cs) (nextIsBracket ns) st,
    '[' :: softToSpace (collectTexts cx cs).1 ++ [']', '[', ']'], ?_, ?_, fun rest => ?_⟩
  · rw [ser, serKids, dispatch]
    rfl
  · rw [ser, dispatch, serLink]
    simp only [serKids_nodes, hs, hk, hu, hb, if_neg ha, if_true, formatExternalLink, Bool.false_eq_true, if_false,
      St.push, addReferences_output]
    simp
  · simpa using readLink_collapsed (rest := rest) ht

example : (formatDoc codeCx (exDoc [.mk .descriptionList ⟨1, 1, 1, 1⟩ [.mk .descriptionItem ⟨1, 1, 1, 1⟩
    [.mk .descriptionTerm ⟨1, 1, 1, 1⟩ [exLink "a" "http://x", exLink "b" "/y"]]]])).output =
    "[a][][b](/y)\n\n[a]: http://x\n".toList := by decide +kernel

end Hongdown.Props
