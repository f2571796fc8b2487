import Verif.Lemmas.ItemBlank
import Verif.Props.ItemQuote

/-!
# C112: one blank line between the blocks of a list item

STYLE.md:437-440 "Use one blank line between […] block elements".
-/

namespace Hongdown.Props
open Model Spec

/-- Two blocks which get one blank line between them: a paragraph and then a paragraph or a code block, or a code block or a list
and then a paragraph. -/
def OneBlank (a b : Node) : Prop :=
  (a.value = .paragraph ∧ (b.value = .paragraph ∨ ∃ info literal, b.value = .codeBlock info literal)) ∨
  (((∃ info literal, a.value = .codeBlock info literal) ∨ ∃ t tight, a.value = .list t tight) ∧ b.value = .paragraph)

theorem blank_bracket {b : Node} (h : b.value = .paragraph ∨ ∃ info literal, b.value = .codeBlock info literal) (B : List Node) :
    nextIsBracket (b :: B) = false := by
  obtain ⟨v, p, cs⟩ := b
  rcases h with h | ⟨_, _, h⟩
  · obtain rfl : v = .paragraph := h
    rfl
  · obtain rfl : v = .codeBlock _ _ := h
    rfl

theorem itemIndent_space (cx : Cx) (st : St) (h : st.listType.isSome = true) (ho : 1 ≤ cx.opts.orderedListIndentWidth) :
    ∃ x, itemIndent cx st = ' ' :: x := by
  have key : ∀ n, 1 ≤ n → ∃ x, spaces n = ' ' :: x := by
    intro n hn
    obtain ⟨m, rfl⟩ : ∃ m, n = m + 1 := ⟨n - 1, by omega⟩
    exact ⟨spaces m, rfl⟩
  have hm : 1 ≤ markerWidth cx st.listType := by
    cases ht : st.listType with
    | none => rw [ht] at h; cases h
    | some t => cases t <;> simp only [markerWidth] <;> omega
  have app : ∀ n m, 1 ≤ m → ∃ x, spaces n ++ spaces m = ' ' :: x := by
    intro n m h
    obtain ⟨x, e⟩ := key (n + m) (by omega)
    exact ⟨x, by rw [← e]; simp [spaces]⟩
  simp only [itemIndent]
  split
  · obtain ⟨x, e⟩ := key (5 + listIndentWidth cx st * (st.listDepth - 1)) (by omega)
    exact ⟨_, by rw [e]; rfl⟩
  · split
    · exact app _ _ hm
    · exact key _ hm

/-- **C112 (partial).** Full statement: for all blocks, see the negations below. An item with the blocks `A` and `a` is written as a
text `x` and a line end. With `b` after them exactly one blank line follows, and then the indent of `b`. Missing: lists in
quotes, where the blank line has no mark (`c110_in_quote_false`). -/
theorem c112_blank_partial (cx : Cx) (v : NodeValue) (p : Pos) (A : List Node) (a b : Node) (B : List Node) (nb : Bool) (st : St)
    (hw : wellPlaced (.mk v p (A ++ a :: b :: B)) = true) (hi : isItemLike (.mk v p (A ++ a :: b :: B)) = true)
    (ha : InItemEnd cx a) (hab : OneBlank a b) (hl : st.listType.isSome = true) (hq : st.inBlockQuote = false)
    (ho : 1 ≤ cx.opts.orderedListIndentWidth) :
    ∃ x y, (ser cx (.mk v p (A ++ [a])) nb st).output = x ++ ['\n'] ∧ x.getLast? ≠ some '\n' ∧
      (ser cx (.mk v p (A ++ a :: b :: B)) nb st).output = x ++ '\n' :: '\n' :: y ∧ y.head? = some ' ' := by
  have hb' : b.value = .paragraph ∨ ∃ info literal, b.value = .codeBlock info literal := by
    rcases hab with ⟨_, h⟩ | ⟨_, h⟩
    · exact h
    · exact .inl h
  obtain ⟨s, s1, s2, s3, s4, h1, h2⟩ := item_pair cx v p A a b B nb st hw hi (blank_bracket hb' B)
  have hv : v = .item ∨ ∃ s, v = .taskItem s := by
    cases v <;> first | exact .inl rfl | exact .inr ⟨_, rfl⟩ | exact absurd hi (by simp [isItemLike, Node.value])
  have hw' : wellPlaced (.mk v p (A ++ [a])) = true := by
    rw [wellPlaced, Bool.and_eq_true, Bool.and_eq_true] at hw ⊢
    obtain ⟨⟨w1, w2⟩, w3⟩ := hw
    refine ⟨⟨w1, ?_⟩, ?_⟩
    · rw [Bool.or_eq_true] at w2 ⊢
      refine w2.imp id fun w2 => ?_
      rw [List.all_eq_true] at w2 ⊢
      intro x hx
      refine w2 x ?_
      simp only [List.mem_append, List.mem_singleton] at hx
      rcases hx with h | h <;> simp [h]
    · clear h1 h2 hi ha hab w1 w2
      induction A with
      | nil =>
        simp only [List.nil_append, wellPlacedList, Bool.and_eq_true] at w3 ⊢
        exact ⟨w3.1, trivial⟩
      | cons c A ih =>
        simp only [List.cons_append, wellPlacedList, Bool.and_eq_true] at w3 ⊢
        exact ⟨w3.1, ih w3.2⟩
  obtain ⟨u, c, e, hc⟩ := item_end (.mk v p A a hv ha) hw' nb st hl
  rw [h1] at e
  obtain ⟨x, hx⟩ := itemIndent_space cx { st with listItemIndex := st.listItemIndex + 1 } hl ho
  rw [hx] at h2
  have q0 : s.inBlockQuote = false := s3.trans hq
  have fin : ∀ t, (∃ z, (ser cx (.mk v p (A ++ a :: b :: B)) nb st).output = s.output ++ (t ++ ' ' :: z)) →
      s.output ++ t = u ++ [c] ++ ['\n', '\n'] →
      ∃ x y, (ser cx (.mk v p (A ++ [a])) nb st).output = x ++ ['\n'] ∧ x.getLast? ≠ some '\n' ∧
        (ser cx (.mk v p (A ++ a :: b :: B)) nb st).output = x ++ '\n' :: '\n' :: y ∧ y.head? = some ' ' := by
    rintro t ⟨z, hz⟩ ht
    refine ⟨u ++ [c], ' ' :: z, ?_, by simpa using hc, ?_, rfl⟩
    · rw [h1, e]; simp
    · rw [hz, ← List.append_assoc, ht]; simp
  have hnode : wellPlaced b = true := by
    rw [wellPlaced, Bool.and_eq_true] at hw
    exact wellPlacedList_mem hw.2 (by simp)
  obtain ⟨vb, pb, cb⟩ := b
  have par : vb = .paragraph → ∀ t, (if a.isCodeBlock || a.isList then ['\n'] else ['\n', '\n']) = t →
      ∃ z, (ser cx (.mk v p (A ++ a :: .mk vb pb cb :: B)) nb st).output = s.output ++ (t ++ ' ' :: z) := by
    rintro rfl t ht
    simp only [serItemChild, Node.value, q0, Bool.false_eq_true, if_false, List.append_nil, ht] at h2
    obtain ⟨z, hz⟩ := (((ser_ok cx (.mk .paragraph pb cb) (nextIsBracket B) hnode).act rfl (s.push (t ++ ' ' :: x))).out).trans h2
    exact ⟨x ++ z, by rw [← hz]; simp [St.push]⟩
  have hx1 : endsLine a = false → s.output = u ++ [c] := by
    intro h
    rw [h, if_neg (by simp), show u ++ [c, '\n'] = u ++ [c] ++ ['\n'] by simp] at e
    exact List.append_cancel_right e
  obtain ⟨va, pa, ca⟩ := a
  rcases hab with ⟨hva, hvb | ⟨info, literal, hvb⟩⟩ | ⟨hva, hvb⟩
  · obtain rfl : va = .paragraph := hva
    exact fin _ (par hvb _ rfl) (by rw [hx1 rfl]; rfl)
  · obtain rfl : va = .paragraph := hva
    obtain rfl : vb = .codeBlock info literal := hvb
    refine fin ['\n', '\n'] ?_ (by rw [hx1 rfl])
    simp only [serItemChild, Node.value, q0, Bool.false_eq_true, if_false, List.append_nil] at h2
    rw [serCodeBlockIndented] at h2
    have hout : ∀ o (s : St), (addCodeWarning s o).output = s.output := by
      intro o s; cases o <;> rfl
    simp only [St.push, hout] at h2
    obtain ⟨z, hz⟩ := h2
    simp only [List.append_assoc, List.cons_append, List.nil_append] at hz
    exact ⟨_, hz.symm⟩
  · have he : endsLine (.mk va pa ca) = true ∧
        ((Node.mk va pa ca).isCodeBlock || (Node.mk va pa ca).isList) = true := by
      rcases hva with ⟨i, l, hva⟩ | ⟨t, b, hva⟩
      · obtain rfl : va = .codeBlock i l := hva
        exact ⟨rfl, rfl⟩
      · obtain rfl : va = .list t b := hva
        exact ⟨rfl, rfl⟩
    rw [he.1, if_pos rfl] at e
    exact fin ['\n'] (par hvb _ (by rw [if_pos he.2])) (by rw [e]; simp)

theorem marker_head {o : Options} (ho : OptionsOk o) {t : ListType} {d k : Nat} {m : List Char} (h : IsMarker o t d k m) :
    ∃ c r, m = c :: r ∧ c ≠ '\n' := by
  cases t with
  | bullet =>
    obtain rfl : m = _ := h
    cases o.leadingSpaces with
    | zero =>
      refine ⟨_, _, rfl, ?_⟩
      rcases ho.unorderedMarker with h | h | h <;> rw [h] <;> decide
    | succ n => exact ⟨' ', _, rfl, by decide⟩
  | ordered =>
    obtain ⟨digits, gap, rfl, hk, _⟩ := h
    obtain ⟨hne, hdig⟩ := digits_of_decimal hk
    obtain ⟨c, cs, rfl⟩ := List.exists_cons_of_ne_nil hne
    refine ⟨c, _, rfl, ?_⟩
    rintro rfl
    exact absurd (hdig _ (.head _)) (by decide)

/-- **C112 (partial).** A list in an item follows the text before it after a blank line if the source has one there, and directly
in the next line otherwise. -/
theorem c112_list_partial (cx : Cx) (v : NodeValue) (p q : Pos) (A : List Node) (a : Node) (items B : List Node) (t : ListType) (tight nb : Bool)
    (st : St) (hw : wellPlaced (.mk v p (A ++ a :: .mk (.list t tight) q items :: B)) = true)
    (hi : isItemLike (.mk v p (A ++ a :: .mk (.list t tight) q items :: B)) = true) (ho : OptionsOk cx.opts)
    (ha : a.value = .paragraph) (hit : items.all isItemLike = true) (hne : items ≠ [])
    (hd : st.inDescriptionDetails = false) (hq : st.inBlockQuote = false) :
    ∃ x y, (ser cx (.mk v p (A ++ [a])) nb st).output = x ++ ['\n'] ∧
      (ser cx (.mk v p (A ++ a :: .mk (.list t tight) q items :: B)) nb st).output =
        x ++ '\n' :: (if a.pos.endLine + 1 < q.startLine then ['\n'] else []) ++ y ∧
      y ≠ [] ∧ y.head? ≠ some '\n' := by
  obtain ⟨s, s1, s2, s3, s4, h1, h2⟩ := item_pair cx v p A a _ B nb st hw hi rfl
  have hend : endsLine a = false := by
    obtain ⟨va, pa, ca⟩ := a
    obtain rfl : va = .paragraph := ha
    rfl
  rw [hend, if_neg (by simp)] at h1
  have hwl : wellPlaced (.mk (.list t tight) q items) = true := by
    rw [wellPlaced, Bool.and_eq_true, Bool.and_eq_true] at hw
    exact wellPlacedList_mem hw.2 (by simp)
  simp only [serItemChild, Node.value, Option.any_some] at h2
  generalize hnl : (if (decide (a.pos.endLine + 1 < (Node.mk (.list t tight) q items).pos.startLine)) = true
    then ['\n', '\n'] else ['\n']) = nl at h2
  have hnl' : nl = '\n' :: (if a.pos.endLine + 1 < q.startLine then ['\n'] else []) := by
    rw [← hnl, show (Node.mk (.list t tight) q items).pos = q from rfl]
    by_cases hlt : a.pos.endLine + 1 < q.startLine <;> simp [hlt]
  obtain ⟨parts, hp1, hp2, hp3⟩ := c43_list cx t tight q items (nextIsBracket B) (s.push nl) hwl hit (s4.trans hd)
  rw [hp2] at h2
  obtain ⟨n, ns, rfl⟩ := List.exists_cons_of_ne_nil hne
  obtain ⟨m', box', body, e, hm', hb'⟩ := hp3 0 n rfl
  obtain ⟨p0, ps, rfl⟩ : ∃ p0 ps, parts = p0 :: ps := by
    cases parts with
    | nil => exact absurd hp1 (by simp)
    | cons a b => exact ⟨a, b, rfl⟩
  simp only [List.getElem?_cons_zero, Option.some.injEq] at e
  obtain ⟨z, hz⟩ := h2
  refine ⟨s.output, p0 ++ ps.flatten ++ z, h1, ?_, ?_⟩
  · rw [← hz, ← hnl']
    simp [St.push]
  · obtain ⟨c, r, rfl, hc⟩ := marker_head ho hm'
    rw [show (s.push nl).inBlockQuote = false from s3.trans hq, if_neg (by simp), if_neg (by simp)] at e
    generalize (if t = .ordered then cx.opts.orderedListIndentWidth else cx.opts.indentWidth) * ((s.push nl).listDepth + 1 - 1) = k at e
    rw [e]
    cases k with
    | zero => exact ⟨by simp, by simpa using hc⟩
    | succ k => exact ⟨by simp [List.replicate_succ], by simp [List.replicate_succ]⟩

/-- A code block. -/
def exCodeIn (s : String) : Node := .mk (.codeBlock [] s.toList) ⟨2, 1, 2, 1⟩ []

example : (formatDoc codeCx (exDoc [exList .bullet [[exPar [exText "a"], exCodeIn "x\n", exPar [exText "b"], exPar [exText "c"]]]])).output =
    " -  a\n\n    ~~~~\n    x\n    ~~~~\n\n    b\n\n    c\n".toList := by decide +kernel
example : (formatDoc codeCx (exDoc [exList .bullet [[exPar [exText "a"], exList .bullet [[exPar [exText "b"]]], exPar [exText "c"]]]])).output =
    " -  a\n     -  b\n\n    c\n".toList := by decide +kernel
example : wellPlaced (exItem [exPar [exText "a"], exCodeIn "x\n", exPar [exText "b"]]) = true := by decide +kernel
example : OneBlank (exCodeIn "x\n") (exPar [exText "b"]) := .inr ⟨.inl ⟨_, _, rfl⟩, rfl⟩

example : InItemEnd codeCx (exPar [exText "a"]) :=
  .paragraph _ _ ⟨'a', by decide +kernel, by decide, by decide⟩ (by decide +kernel)

/-- **C112 is false** of a code block after a code block in an item: two blank lines are written between them. -/
theorem c112_codes_false : ¬ ∀ (a : String) (x y : List Char), '\n' ∉ x → '\n' ∉ y →
    ¬ "\n\n\n".toList <:+: (formatDoc codeCx (exDoc [exList .bullet [[exPar [exText a], exCodeIn (String.ofList (x ++ ['\n'])),
      exCodeIn (String.ofList (y ++ ['\n']))]]])).output := by
  intro h
  exact absurd (h "a" ['x'] ['y'] (by decide) (by decide)) (by decide +kernel)

example : (formatDoc codeCx (exDoc [exList .bullet [[exPar [exText "a"], exCodeIn "x\n", exCodeIn "y\n"]]])).output =
    " -  a\n\n    ~~~~\n    x\n    ~~~~\n\n\n    ~~~~\n    y\n    ~~~~\n".toList := by decide +kernel

/-- **C112 is false** of a code block after a list in an item. -/
theorem c112_list_code_false : ¬ ∀ (a b : String) (x : List Char), '\n' ∉ x →
    ¬ "\n\n\n".toList <:+: (formatDoc codeCx (exDoc [exList .bullet [[exPar [exText a], exList .bullet [[exPar [exText b]]],
      exCodeIn (String.ofList (x ++ ['\n']))]]])).output := by
  intro h
  exact absurd (h "a" "b" ['x'] (by decide)) (by decide +kernel)

/-- **C112 is false** of a quote after a code block in an item. -/
theorem c112_code_quote_false : ¬ ∀ (a b : String) (x : List Char), '\n' ∉ x →
    ¬ "\n\n\n".toList <:+: (formatDoc codeCx (exDoc [exList .bullet [[exPar [exText a], exCodeIn (String.ofList (x ++ ['\n'])),
      exInnerQuote [exPar [exText b]]]]])).output := by
  intro h
  exact absurd (h "a" "b" ['x'] (by decide)) (by decide +kernel)

end Hongdown.Props
