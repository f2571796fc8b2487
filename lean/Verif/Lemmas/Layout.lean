import Verif.Lemmas.DocRun
import Verif.Lemmas.Text
import Verif.Spec.Document

set_option linter.unusedSimpArgs false

/-!
# The layout of a document
-/

namespace Hongdown
open Model Spec

/-! ### The switches -/

/-- The skip mode after a child. -/
def modeStep (s : SkipMode) (m : Node) : SkipMode :=
  match m.directive with
  | some .disable => .disabled
  | some .enable => .none
  | some .disableNextLine => .nextBlock
  | some .disableNextSection => .untilSection
  | some _ => s
  | none =>
    if m.isFootnoteDefinition then s
    else if s = .nextBlock then .none
    else if s = .untilSection ∧ startsSection m = true then .none
    else s

def modeAfter (before : List Node) : SkipMode := before.foldl modeStep .none

theorem modeAfter_snoc (before : List Node) (m : Node) :
    modeAfter (before ++ [m]) = modeStep (modeAfter before) m := by
  simp [modeAfter, List.foldl_append]

/-- There is a last node with `Q` and after it only nodes with `R`. -/
def LastIs (Q R : Node → Prop) (l : List Node) : Prop :=
  ∃ A d B, l = A ++ d :: B ∧ Q d ∧ ∀ x ∈ B, R x

theorem lastIs_nil (Q R : Node → Prop) : ¬ LastIs Q R [] := by
  rintro ⟨A, d, B, h, _⟩
  simp at h

theorem lastIs_snoc (Q R : Node → Prop) (l : List Node) (m : Node) :
    LastIs Q R (l ++ [m]) ↔ Q m ∨ (R m ∧ LastIs Q R l) := by
  constructor
  · rintro ⟨A, d, B, h, hq, hr⟩
    rcases List.eq_nil_or_concat B with rfl | ⟨B', x, rfl⟩
    · have h := List.append_inj' h rfl
      simp only [List.cons.injEq, and_true] at h
      exact .inl (h.2 ▸ hq)
    · have h : l ++ [m] = (A ++ d :: B') ++ [x] := by rw [h]; simp
      have h := List.append_inj' h rfl
      simp only [List.cons.injEq, and_true] at h
      rw [h.2]
      exact .inr ⟨hr x (by simp), A, d, B', h.1, hq, fun y hy => hr y (by simp [hy])⟩
  · rintro (h | ⟨hm, A, d, B, h, hq, hr⟩)
    · exact ⟨l, m, [], rfl, h, by simp⟩
    · refine ⟨A, d, B ++ [m], by rw [h]; simp, hq, fun x hx => ?_⟩
      rcases List.mem_append.mp hx with hx | hx
      · exact hr x hx
      · rw [List.mem_singleton.mp hx]; exact hm

def QuietD (m : Node) : Prop := isSwitch m = false
def QuietN (m : Node) : Prop := isSwitch m = false ∧ isTextBlock m = false
def QuietS (m : Node) : Prop := isSwitch m = false ∧ startsSection m = false

def Sw (d : Directive) (n : Node) : Prop := n.directive = some d

theorem directive_heading {n : Node} {d : Directive} (h : n.directive = some d) :
    n.headingLevel = none ∧ n.isFootnoteDefinition = false ∧ n.html?.isSome = true := by
  obtain ⟨v, p, cs⟩ := n
  cases v <;> simp_all [Node.directive, Node.value, Node.headingLevel, Node.isFootnoteDefinition, Node.html?]

theorem footnote_facts {n : Node} (h : n.isFootnoteDefinition = true) :
    n.directive = none ∧ n.headingLevel = none ∧ n.html? = none := by
  obtain ⟨v, p, cs⟩ := n
  cases v <;> simp_all [Node.directive, Node.value, Node.headingLevel, Node.isFootnoteDefinition, Node.html?]

/-- The mode is what the last switch says. -/
theorem modeAfter_spec (l : List Node) :
    (modeAfter l = .disabled ↔ LastIs (Sw .disable) QuietD l) ∧
    (modeAfter l = .nextBlock ↔ LastIs (Sw .disableNextLine) QuietN l) ∧
    (modeAfter l = .untilSection ↔ LastIs (Sw .disableNextSection) QuietS l) := by
  have key : ∀ r : List Node, (modeAfter r.reverse = .disabled ↔ LastIs (Sw .disable) QuietD r.reverse) ∧
    (modeAfter r.reverse = .nextBlock ↔ LastIs (Sw .disableNextLine) QuietN r.reverse) ∧
    (modeAfter r.reverse = .untilSection ↔ LastIs (Sw .disableNextSection) QuietS r.reverse) := by
    intro r
    induction r with
    | nil => simp [modeAfter, lastIs_nil]
    | cons m r ih =>
      obtain ⟨h1, h2, h3⟩ := ih
      rw [List.reverse_cons, modeAfter_snoc, lastIs_snoc, lastIs_snoc, lastIs_snoc, ← h1, ← h2, ← h3]
      generalize modeAfter r.reverse = s
      cases hd : m.directive with
      | some d =>
        obtain ⟨hh, hf, _⟩ := directive_heading hd
        cases d <;>
          simp [modeStep, hd, Sw, QuietD, QuietN, QuietS, isSwitch, isTextBlock, startsSection, hh, hf]
      | none =>
        by_cases hf : m.isFootnoteDefinition = true
        · obtain ⟨_, hh, _⟩ := footnote_facts hf
          simp [modeStep, hd, Sw, QuietD, QuietN, QuietS, isSwitch, isTextBlock, startsSection, hh, hf]
        · cases hs : startsSection m <;> cases s <;>
            simp [modeStep, hd, Sw, QuietD, QuietN, QuietS, isSwitch, isTextBlock, hf, hs]
  have := key l.reverse
  rwa [List.reverse_reverse] at this

theorem off_iff (l : List Node) (n : Node) :
    Off l n ↔ modeAfter l = .disabled ∨ modeAfter l = .nextBlock ∨
      (modeAfter l = .untilSection ∧ startsSection n = false) := by
  obtain ⟨h1, h2, h3⟩ := modeAfter_spec l
  rw [h1, h2, h3]
  constructor
  · rintro (⟨A, d, B, h, hq, hr⟩ | ⟨A, d, B, h, hq, hr, hr'⟩ | ⟨A, d, B, h, hq, hr, hr', hn⟩)
    · exact .inl ⟨A, d, B, h, hq, hr⟩
    · exact .inr (.inl ⟨A, d, B, h, hq, fun x hx => ⟨hr x hx, hr' x hx⟩⟩)
    · exact .inr (.inr ⟨⟨A, d, B, h, hq, fun x hx => ⟨hr x hx, hr' x hx⟩⟩, hn⟩)
  · rintro (⟨A, d, B, h, hq, hr⟩ | ⟨A, d, B, h, hq, hr⟩ | ⟨⟨A, d, B, h, hq, hr⟩, hn⟩)
    · exact .disable A d B h hq hr
    · exact .nextLine A d B h hq (fun x hx => (hr x hx).1) (fun x hx => (hr x hx).2)
    · exact .nextSection A d B h hq (fun x hx => (hr x hx).1) (fun x hx => (hr x hx).2) hn

/-! ### Text -/

theorem group_flush {α : Type} (f : α → List Char) (out : List Char) (xs : List α) :
    Group f out (groupText out f xs) := by
  rw [groupText]
  split
  · exact .inl rfl
  · rename_i h
    exact .inr ⟨xs, _, h, gapOf_isGap out, rfl⟩

theorem flushAll_definitions (cx : Cx) (b : Option Nat) (st : St) :
    ∃ t, (flushAll cx b st).output = st.output ++ t ∧ Definitions cx st.output t := by
  rw [flushAll, flushFootnoteRefs_eq, flushReferences_eq, flushFootnotes_eq]
  refine ⟨_, by simp only [List.append_assoc]; rfl, _, _, _, (List.append_assoc _ _ _).symm,
    group_flush _ _ _, group_flush _ _ _, ?_⟩
  simp only [List.append_assoc]
  exact group_flush _ _ _

theorem view_eq_of {a b : St} (hc : ctx b = ctx a)
    (hd : b.descriptionDetailsFirstList = a.descriptionDetailsFirstList)
    (hp : b.directiveProperNouns = a.directiveProperNouns)
    (hm : b.directiveCommonNouns = a.directiveCommonNouns) : view b = view a := by
  obtain ⟨h1, h2, h3, h4, h5, h6, h7, h8, h9, h10, h11⟩ := ctx_eq hc
  simp only [view, St.mk.injEq]
  simp [*]

theorem OkAt.view {u : Uses} {a b : St} (h : OkAt u a b)
    (hd : a.descriptionDetailsFirstList = false) : view b = view a :=
  view_eq_of h.ctx (by rw [h.dd hd, hd]) h.core.proper h.core.common

theorem flushAll_view (cx : Cx) (b : Option Nat) (st : St) : view (flushAll cx b st) = view st := by
  obtain ⟨_, _, h3, h4, h5, h6⟩ := flushAll_rest cx b st
  exact view_eq_of h3 h6 h4 h5

/-- The state in which a block stands, as far as it matters. -/
def startSt (before : List Node) : St :=
  { directiveProperNouns := declaredProper before, directiveCommonNouns := declaredCommon before }

/-- The state of the loop after the children `before`. -/
structure TopInv (before : List Node) (st : St) : Prop where
  mode : st.skipMode = modeAfter before
  view : view st = view (startSt before)

theorem TopInv.dd {before : List Node} {st : St} (h : TopInv before st) :
    st.descriptionDetailsFirstList = false := by
  have := congrArg St.descriptionDetailsFirstList h.view
  exact this

theorem declaredProper_snoc (before : List Node) (n : Node) (h : n.directive = none ∨
    ∃ d, n.directive = some d ∧ (∀ x, d ≠ .properNouns x) ∧ ∀ x, d ≠ .commonNouns x) :
    startSt (before ++ [n]) = startSt before := by
  rcases h with h | ⟨d, h, h1, h2⟩
  · simp [startSt, declaredProper, declaredCommon, h]
  · cases d <;> simp_all [startSt, declaredProper, declaredCommon]

theorem act_text {cx : Cx} {n : Node} {nb : Bool} {before : List Node} {st : St}
    (hw : wellPlaced n = true) (hv : view st = view (startSt before)) :
    (ser cx n nb st).output = st.output ++ formatted cx before n nb := by
  obtain ⟨_, t, h1, h2⟩ := ser_par cx n nb hw st (startSt before) hv
  rw [h1, formatted]
  have h2 : (ser cx n nb (startSt before)).output = t := h2
  rw [show ({ directiveProperNouns := declaredProper before
              directiveCommonNouns := declaredCommon before } : St) = startSt before from rfl, h2]

theorem blockGap_eq (before : List Node) (n : Node) :
    blockGap before.getLast? n = gapBetween before n := by
  unfold blockGap gapBetween
  cases before.getLast? with
  | none => rfl
  | some p =>
    simp only []
    by_cases h1 : p.isFrontMatter = true
    · rw [if_pos h1, if_pos h1]
    · rw [if_neg h1, if_neg h1]
      cases h2 : p.headingLevel <;> by_cases h3 : n.headingLevel = some 2 <;> simp [h3]

/-- What a block in the loop writes. -/
theorem serTopBlock_text {cx : Cx} {n : Node} {nb : Bool} {before : List Node} {st : St}
    (hw : wellPlaced n = true) (hi : isItemLike n = false) (hd : n.directive = none)
    (hf : n.isFootnoteDefinition = false) (h : TopInv before st) :
    ∃ text, (serTopBlock cx ⟨n, ser cx n nb⟩ st).output = st.output ++ text ∧
      TopInv (before ++ [n]) (serTopBlock cx ⟨n, ser cx n nb⟩ st) ∧
      (text = formatted cx before n nb ∧ (Off before n → extractSource cx n.pos = none) ∨
        ∃ source, Off before n ∧ extractSource cx n.pos = some source ∧ text = source ++ ['\n']) := by
  have hs : startSt (before ++ [n]) = startSt before := declaredProper_snoc before n (.inl hd)
  have act : ∀ s : St, view s = view st → (ser cx n nb s).output = s.output ++ formatted cx before n nb ∧
      view (ser cx n nb s) = view (startSt before) ∧ (ser cx n nb s).skipMode = s.skipMode := by
    intro s hv
    have hok := (ser_ok cx n nb hw).act hi s
    have hdd : s.descriptionDetailsFirstList = false :=
      (congrArg St.descriptionDetailsFirstList hv).trans h.dd
    exact ⟨act_text hw (hv.trans h.view), (hok.view hdd).trans (hv.trans h.view), hok.core.skip⟩
  have hm : modeAfter (before ++ [n]) = if st.skipMode = .nextBlock then .none
      else if st.skipMode = .untilSection ∧ startsSection n = true then .none else st.skipMode := by
    rw [modeAfter_snoc, modeStep, hd, h.mode]
    simp [hf]
  have ho := off_iff before n
  rw [← h.mode] at ho
  rw [serTopBlock]
  by_cases h0 : st.skipMode = .none
  · rw [if_pos h0]
    obtain ⟨a1, a2, a3⟩ := act st rfl
    refine ⟨_, a1, ⟨?_, by rw [hs]; exact a2⟩, .inl ⟨rfl, fun hoff => ?_⟩⟩
    · rw [hm, h0] at *
      simpa using a3
    · rw [ho, h0] at hoff
      simp at hoff
  · rw [if_neg h0]
    by_cases h1 : st.skipMode = .untilSection ∧ startsSection n = true
    · rw [if_pos (by exact h1)]
      obtain ⟨a1, a2, a3⟩ := act { st with skipMode := .none } rfl
      refine ⟨_, a1, ⟨?_, by rw [hs]; exact a2⟩, .inl ⟨rfl, fun hoff => ?_⟩⟩
      · show (ser cx n nb { st with skipMode := .none }).skipMode = _
        rw [a3, hm, if_neg (by rw [h1.1]; simp), if_pos h1]
      · rw [ho, h1.1, h1.2] at hoff
        simp at hoff
    · rw [if_neg (by exact h1)]
      have hoff : Off before n := by
        rw [ho]
        cases hsk : st.skipMode with
        | none => exact absurd hsk h0
        | nextBlock => simp
        | disabled => simp
        | untilSection =>
          rw [hsk] at h1
          cases hss : startsSection n with
          | false => simp
          | true => simp [hss] at h1
      have hm2 : (if st.skipMode = .nextBlock then { st with skipMode := .none } else st).skipMode =
          modeAfter (before ++ [n]) := by
        rw [hm]
        by_cases h2 : st.skipMode = .nextBlock
        · rw [if_pos h2, if_pos h2]
        · rw [if_neg h2, if_neg h2, if_neg h1]
      have hv2 : view (if st.skipMode = .nextBlock then { st with skipMode := .none } else st) = view st := by
        split <;> rfl
      have ho2 : (if st.skipMode = .nextBlock then { st with skipMode := .none } else st).output = st.output := by
        split <;> rfl
      generalize (if st.skipMode = .nextBlock then { st with skipMode := .none } else st) = s at hm2 hv2 ho2
      simp only []
      cases hx : extractSource cx n.pos with
      | some source =>
        refine ⟨source ++ ['\n'], by simp only [St.push, ho2], ⟨hm2, ?_⟩, .inr ⟨source, hoff, rfl, rfl⟩⟩
        rw [hs]; exact hv2.trans h.view
      | none =>
        obtain ⟨a1, a2, a3⟩ := act s hv2
        exact ⟨_, by rw [a1, ho2], ⟨a3.trans hm2, by rw [hs]; exact a2⟩, .inl ⟨rfl, fun _ => rfl⟩⟩

theorem restOfFile_eq (cx : Cx) (n : Node) :
    restOfFile cx n = match extractSourceFromLine cx (n.pos.endLine + 1) with
      | some remaining => '\n' :: remaining
      | none => [] := by
  rw [restOfFile, extractSourceFromLine]
  cases hd : cx.sourceLines.drop n.pos.endLine with
  | nil =>
    have : cx.sourceLines.length ≤ n.pos.endLine := List.drop_eq_nil_iff.mp hd
    simp only [Nat.add_sub_cancel]
    split
    · rename_i h; split at h
      · cases h
      · simp [this] at h
    · rfl
  | cons l ls =>
    have h1 : ¬ cx.sourceLines.length ≤ n.pos.endLine := fun h => by
      rw [List.drop_eq_nil_iff.mpr h] at hd; cases hd
    have h2 : cx.sourceLines ≠ [] := by
      rintro h; rw [h] at hd; simp at hd
    have h3 : ¬ (cx.sourceLines = [] ∨ n.pos.endLine + 1 = 0) := by simp [h2]
    simp only [if_neg h3, Nat.add_sub_cancel, if_neg h1, hd]
    simp

/-! ### The loop -/

/-- The end of `serDocument`. -/
def finishDoc (cx : Cx) (T : List Node) (r : St × Bool) : St :=
  if r.2 then r.1 else outputTrailing T (flushAll cx none r.1)

theorem outputTrailing_html {tail T : List Node}
    (hT : T.filterMap Node.html? = tail.filterMap Node.html?) (st : St) :
    ∃ t, (outputTrailing T st).output = st.output ++ t ∧ htmlTail st.output tail t := by
  rw [outputTrailing, hT]
  cases h : tail.filterMap Node.html? with
  | nil => exact ⟨[], by simp, .inl ⟨h, rfl⟩⟩
  | cons l ls =>
    refine ⟨gapOf st.output ++ (l :: ls).flatten, ?_, .inr ⟨by simp [h], gapOf st.output, gapOf_isGap _, by rw [h]⟩⟩
    simp only [ensureBlankLine_eq, St.push, List.append_assoc, List.flatten_cons]

theorem getLast_isSome (before : List Node) : before.getLast?.isSome = true ↔ before ≠ [] := by
  cases before <;> simp

theorem gap_if (before : List Node) : (if before.getLast?.isSome = true then ['\n'] else []) =
    (if before = [] then ([] : List Char) else ['\n']) := by
  cases before <;> simp

theorem loop_layout {cx : Cx} {tail T : List Node}
    (hT : T.filterMap Node.html? = tail.filterMap Node.html?) : ∀ (main before : List Node) (st : St) (m : Nat),
    main.length ≤ m →
    (∀ prev st, serTopLoop cx prev (m - main.length) (serKids cx tail) st = (st, false)) →
    TopInv before st → wellPlacedDoc main = true →
    ∃ t, Layout cx tail st.output before main t ∧
      (finishDoc cx T (serTopLoop cx before.getLast? m (serKids cx (main ++ tail)) st)).output =
        st.output ++ t
  | [], before, st, m, _, ht, _, _ => by
    have h := ht before.getLast? st
    rw [List.length_nil, Nat.sub_zero] at h
    rw [List.nil_append, h, finishDoc, if_neg (by simp)]
    obtain ⟨t1, h1, h2⟩ := flushAll_definitions cx none st
    obtain ⟨t2, h3, h4⟩ := outputTrailing_html hT (flushAll cx none st)
    rw [h1] at h3 h4
    exact ⟨t1 ++ t2, .done _ _ _ _ h2 h4, by rw [h3, List.append_assoc]⟩
  | n :: main, before, st, m, hm, ht, hi, hw => by
    have hwn : wellPlaced n = true ∧ isItemLike n = false ∧ wellPlacedDoc main = true := by
      simp only [wellPlacedDoc, List.all_cons, wellPlacedList, Bool.and_eq_true, Bool.not_eq_true'] at hw ⊢
      exact ⟨hw.2.1, hw.1.1, hw.1.2, hw.2.2⟩
    obtain ⟨hw1, hi1, hw2⟩ := hwn
    have hm0 : (m == 0) = false := by
      cases m with
      | zero => simp at hm
      | succ m => rfl
    have hm1 : main.length ≤ m - 1 := by rw [List.length_cons] at hm; omega
    have hm2 : m - 1 - main.length = m - (n :: main).length := by
      rw [List.length_cons]; omega
    -- what remains to be done after this child
    have next : ∀ s : St, TopInv (before ++ [n]) s → ∃ t, Layout cx tail s.output (before ++ [n]) main t ∧
        (finishDoc cx T (serTopLoop cx (some n) (m - 1) (serKids cx (main ++ tail)) s)).output =
          s.output ++ t := by
      intro s hs
      obtain ⟨t, h1, h2⟩ := loop_layout hT main (before ++ [n]) s (m - 1) hm1 (by rw [hm2]; exact ht) hs hw2
      rw [List.getLast?_append] at h2
      exact ⟨t, h1, h2⟩
    have step : ∀ s : St, serTopChild cx before.getLast? false ⟨n, ser cx n (nextIsBracket (main ++ tail))⟩ st = (s, false) →
        serTopLoop cx before.getLast? m (serKids cx (n :: main ++ tail)) st =
          serTopLoop cx (some n) (m - 1) (serKids cx (main ++ tail)) s := by
      intro s hs
      rw [List.cons_append, serKids, serTopLoop, hm0, hs]
      rfl
    by_cases hf : n.isFootnoteDefinition = true
    · obtain ⟨f1, f2, f3⟩ := footnote_facts hf
      have hs := step st (by rw [serTopChild]; simp [hf])
      have hi' : TopInv (before ++ [n]) st := by
        refine ⟨?_, by rw [declaredProper_snoc before n (.inl f1)]; exact hi.view⟩
        rw [modeAfter_snoc, modeStep, f1, hi.mode]
        simp [hf]
      obtain ⟨t, h1, h2⟩ := next st hi'
      exact ⟨t, .hidden _ _ _ _ _ hf h1, by rw [hs]; exact h2⟩
    · have hf' : n.isFootnoteDefinition = false := by simpa using hf
      cases hd : n.directive with
      | none =>
        have htb : isTextBlock n = true := by simp [isTextBlock, hd, hf']
        -- the flush before a heading
        have hfl : ∃ defs s, (if before.getLast?.isSome ∧ (n.headingLevel = some 2 ∨ n.headingLevel = some 3)
              then flushAll cx (some n.pos.startLine) st else st) = s ∧ s.output = st.output ++ defs ∧
            TopInv before s ∧ (if writesDefinitions before n then Definitions cx st.output defs else defs = []) := by
          have hwd : writesDefinitions before n = true ↔
              (before.getLast?.isSome ∧ (n.headingLevel = some 2 ∨ n.headingLevel = some 3)) := by
            rw [writesDefinitions, hd, getLast_isSome]
            cases before <;> simp
          by_cases hc : writesDefinitions before n = true
          · rw [if_pos (hwd.mp hc)]
            obtain ⟨t, h1, h2⟩ := flushAll_definitions cx (some n.pos.startLine) st
            exact ⟨t, _, rfl, h1, ⟨(flushAll_rest _ _ _).1.trans hi.mode, (flushAll_view _ _ _).trans hi.view⟩, by rw [if_pos hc]; exact h2⟩
          · rw [if_neg (fun h => hc (hwd.mpr h))]
            exact ⟨[], st, rfl, by simp, hi, by rw [if_neg hc]⟩
        obtain ⟨defs, s, hs, ho, hinv, hdefs⟩ := hfl
        have hinv' : TopInv before (s.push (gapBetween before n)) := ⟨hinv.mode, hinv.view⟩
        obtain ⟨text, h1, h2, h3⟩ := serTopBlock_text (cx := cx) (nb := nextIsBracket (main ++ tail)) hw1 hi1 hd hf' hinv'
        have hst := step (serTopBlock cx ⟨n, ser cx n (nextIsBracket (main ++ tail))⟩ (s.push (gapBetween before n))) (by
          rw [serTopChild]
          simp only [Bool.false_and, hf', hd, hs, blockGap_eq]
          simp)
        obtain ⟨t, h4, h5⟩ := next _ h2
        have ho2 : (serTopBlock cx ⟨n, ser cx n (nextIsBracket (main ++ tail))⟩ (s.push (gapBetween before n))).output =
            st.output ++ defs ++ gapBetween before n ++ text := by
          rw [h1]; simp only [St.push, ho]
        rw [ho2] at h4 h5
        refine ⟨_, .block _ defs text t _ _ _ htb hdefs h3 h4, ?_⟩
        rw [hst, h5]
        simp only [List.append_assoc]
      | some d =>
        obtain ⟨d1, _, d3⟩ := directive_heading hd
        obtain ⟨literal, hl⟩ := Option.isSome_iff_exists.mp d3
        obtain ⟨defs, g1, g2⟩ := flushAll_definitions cx (some n.pos.startLine) st
        have gm := (flushAll_rest cx (some n.pos.startLine) st).1
        have gv := flushAll_view cx (some n.pos.startLine) st
        generalize hg : flushAll cx (some n.pos.startLine) st = s at g1 gm gv
        -- the three ways to go on
        have switch : ∀ mode : SkipMode, (writesDefinitions before n = true) → d ≠ .disableFile →
            (∀ x, d ≠ .properNouns x) → (∀ x, d ≠ .commonNouns x) →
            modeAfter (before ++ [n]) = mode →
            serTopChild cx before.getLast? false ⟨n, ser cx n (nextIsBracket (main ++ tail))⟩ st =
              (writeDirective (if before = [] then [] else ['\n']) literal mode s, false) →
            ∃ t, Layout cx tail st.output before (n :: main) t ∧
              (finishDoc cx T (serTopLoop cx before.getLast? m (serKids cx (n :: main ++ tail)) st)).output =
                st.output ++ t := by
          intro mode hwd hdf hp1 hp2 hmode he
          have hst := step _ he
          have hinv : TopInv (before ++ [n]) (writeDirective (if before = [] then [] else ['\n']) literal mode s) := by
            refine ⟨hmode.symm, ?_⟩
            rw [declaredProper_snoc before n (.inr ⟨d, hd, hp1, hp2⟩)]
            exact gv.trans hi.view
          obtain ⟨t, h4, h5⟩ := next _ hinv
          have ho2 : (writeDirective (if before = [] then [] else ['\n']) literal mode s).output =
              st.output ++ defs ++ (if before = [] then [] else ['\n']) ++ literal := by
            simp only [writeDirective, St.push, g1, List.append_assoc]
          rw [ho2] at h4 h5
          refine ⟨_, .directive _ defs t _ _ n literal (by simp [hd]) (by simp [hd, hdf]) hl
            (by rw [if_pos hwd]; exact g2) h4, ?_⟩
          rw [hst, h5]
          simp only [List.append_assoc]
        have plain : ∀ s' : St, (writesDefinitions before n = false) → d ≠ .disableFile →
            TopInv (before ++ [n]) s' → s'.output = st.output ++ ((if before = [] then [] else ['\n']) ++ literal) →
            serTopChild cx before.getLast? false ⟨n, ser cx n (nextIsBracket (main ++ tail))⟩ st = (s', false) →
            ∃ t, Layout cx tail st.output before (n :: main) t ∧
              (finishDoc cx T (serTopLoop cx before.getLast? m (serKids cx (n :: main ++ tail)) st)).output =
                st.output ++ t := by
          intro s' hwd hdf hinv ho he
          have hst := step _ he
          obtain ⟨t, h4, h5⟩ := next _ hinv
          have ho2 : s'.output = st.output ++ [] ++ (if before = [] then [] else ['\n']) ++ literal := by
            rw [ho]; simp only [List.append_assoc, List.nil_append]
          rw [ho2] at h4 h5
          refine ⟨_, .directive _ [] t _ _ n literal (by simp [hd]) (by simp [hd, hdf]) hl
            (by rw [hwd]; rfl) h4, ?_⟩
          rw [hst, h5]
          simp only [List.append_assoc, List.nil_append]
        have hmode := modeAfter_snoc before n
        rw [modeStep, hd] at hmode
        cases d with
        | disableFile =>
          refine ⟨defs ++ trimEnd literal ++ restOfFile cx n, .file _ _ _ _ _ literal hd hl g2, ?_⟩
          have he : serTopChild cx before.getLast? false ⟨n, ser cx n (nextIsBracket (main ++ tail))⟩ st =
              (s.push (trimEnd literal ++ restOfFile cx n), true) := by
            rw [serTopChild, restOfFile_eq]
            simp only [Bool.false_and, hf', hd, hg, hl, Option.getD_some]
            cases extractSourceFromLine cx (n.pos.endLine + 1) <;> simp [St.push]
          rw [List.cons_append, serKids, serTopLoop, hm0, he]
          simp only [finishDoc, if_true, St.push, g1, List.append_assoc]
        | disableNextLine =>
          exact switch .nextBlock (by simp [writesDefinitions, hd]) (by simp) (by simp) (by simp) hmode (by
            rw [serTopChild]; simp [hf', hd, hg, hl, gap_if])
        | disableNextSection =>
          exact switch .untilSection (by simp [writesDefinitions, hd]) (by simp) (by simp) (by simp) hmode (by
            rw [serTopChild]; simp [hf', hd, hg, hl, gap_if])
        | disable =>
          exact switch .disabled (by simp [writesDefinitions, hd]) (by simp) (by simp) (by simp) hmode (by
            rw [serTopChild]; simp [hf', hd, hg, hl, gap_if])
        | enable =>
          refine plain (writeDirective (if before = [] then [] else ['\n']) literal .none st)
            (by simp [writesDefinitions, hd]) (by simp) ⟨hmode.symm, ?_⟩ rfl (by
            rw [serTopChild]; simp [hf', hd, hg, hl, gap_if])
          rw [declaredProper_snoc before n (.inr ⟨_, hd, by simp, by simp⟩)]
          exact hi.view
        | properNouns ns =>
          refine plain (({ st with directiveProperNouns := st.directiveProperNouns ++ ns }).push
              ((if before = [] then [] else ['\n']) ++ literal))
            (by simp [writesDefinitions, hd]) (by simp) ⟨hi.mode.trans hmode.symm, ?_⟩ rfl (by
            rw [serTopChild]; simp [hf', hd, hg, hl, gap_if])
          have hv := hi.view
          simp only [view, startSt, St.mk.injEq, St.push, declaredProper, declaredCommon,
            List.flatMap_append, List.flatMap_cons, List.flatMap_nil, hd, List.append_nil] at hv ⊢
          simp [hv]
        | commonNouns ns =>
          refine plain (({ st with directiveCommonNouns := st.directiveCommonNouns ++ ns }).push
              ((if before = [] then [] else ['\n']) ++ literal))
            (by simp [writesDefinitions, hd]) (by simp) ⟨hi.mode.trans hmode.symm, ?_⟩ rfl (by
            rw [serTopChild]; simp [hf', hd, hg, hl, gap_if])
          have hv := hi.view
          simp only [view, startSt, St.mk.injEq, St.push, declaredProper, declaredCommon,
            List.flatMap_append, List.flatMap_cons, List.flatMap_nil, hd, List.append_nil] at hv ⊢
          simp [hv]

/-! ### The trailing part -/

theorem trailingCount_spec {rest : List Node}
    (hr : ∀ n, rest.head? = some n → n.isPlainHtml = false ∧ n.isFootnoteDefinition = false) :
    ∀ l : List Node, (∀ n ∈ l, n.isPlainHtml = true ∨ n.isFootnoteDefinition = true) →
    ∃ T F, l = T ++ F ∧ (∀ n ∈ F, n.isFootnoteDefinition = true) ∧
      trailingCount (l ++ rest) = T.length
  | [], _ => by
    refine ⟨[], [], rfl, by simp, ?_⟩
    cases rest with
    | nil => rfl
    | cons n ns =>
      obtain ⟨h1, h2⟩ := hr n rfl
      simp [trailingCount, h1, h2]
  | n :: l, h => by
    obtain ⟨T, F, e, hF, hc⟩ := trailingCount_spec hr l (fun m hm => h m (by simp [hm]))
    rw [List.cons_append, trailingCount]
    by_cases hp : n.isPlainHtml = true
    · rw [if_pos hp, hc]
      exact ⟨n :: T, F, by rw [e]; rfl, hF, rfl⟩
    · rw [if_neg hp]
      have hf : n.isFootnoteDefinition = true := (h n (by simp)).resolve_left hp
      rw [if_pos hf, hc]
      by_cases ht : T.length = 0
      · rw [if_pos ht]
        rw [List.eq_nil_of_length_eq_zero ht] at e
        refine ⟨[], n :: F, by rw [e]; rfl, fun m hm => ?_, rfl⟩
        rcases List.mem_cons.mp hm with rfl | hm
        · exact hf
        · exact hF m hm
      · rw [if_neg ht]
        exact ⟨n :: T, F, by rw [e]; rfl, hF, rfl⟩

theorem trailing_spec {cs main tail : List Node} (h : Trailing cs main tail) :
    ∃ F T, tail = F ++ T ∧ (∀ n ∈ F, n.isFootnoteDefinition = true) ∧
      trailingStart cs = main.length + F.length := by
  obtain ⟨T, F, e, hF, hc⟩ := trailingCount_spec (rest := main.reverse)
    (fun n hn => h.main n (by rwa [List.head?_reverse] at hn)) tail.reverse
    (fun n hn => h.tail n (List.mem_reverse.mp hn))
  have e' : tail = F.reverse ++ T.reverse := by
    rw [← List.reverse_reverse tail, e, List.reverse_append]
  refine ⟨F.reverse, T.reverse, e', fun n hn => hF n (List.mem_reverse.mp hn), ?_⟩
  rw [trailingStart, h.eq, List.reverse_append, hc, List.length_append, e']
  simp only [List.length_append, List.length_reverse]
  omega

theorem loop_tail (cx : Cx) (T : List Node)
    (hT : ∀ n ∈ T, n.isPlainHtml = true ∨ n.isFootnoteDefinition = true) : ∀ (F : List Node)
    (_ : ∀ n ∈ F, n.isFootnoteDefinition = true) (prev : Option Node) (st : St),
    serTopLoop cx prev F.length (serKids cx (F ++ T)) st = (st, false)
  | [], _, prev, st => by
    induction T generalizing prev with
    | nil => rfl
    | cons n T ih =>
      rw [List.nil_append, serKids, serTopLoop]
      have : serTopChild cx prev ((([] : List Node).length) == 0)
          ⟨n, ser cx n (nextIsBracket T)⟩ st = (st, false) := by
        rw [serTopChild]
        rcases hT n (by simp) with h | h
        · simp only [Node.isPlainHtml, Bool.and_eq_true] at h
          simp [h.1]
        · simp [h]
      rw [this]
      exact ih (fun n hn => hT n (by simp [hn])) (some n)
  | n :: F, hF, prev, st => by
    rw [List.cons_append, serKids, serTopLoop]
    have : serTopChild cx prev (((n :: F).length) == 0)
        ⟨n, ser cx n (nextIsBracket (F ++ T))⟩ st = (st, false) := by
      rw [serTopChild]
      simp [hF n (by simp)]
    rw [this]
    exact loop_tail cx T hT F (fun n hn => hF n (by simp [hn])) (some n) st

/-! ### The document -/

theorem footnoteDefinitions_state {cx : Cx} : ∀ (cs : List Node) (st : St), wellPlacedDoc cs = true →
    st.descriptionDetailsFirstList = false →
    (serFootnoteDefinitions (serKids cx cs) st).output = st.output ∧
    (serFootnoteDefinitions (serKids cx cs) st).skipMode = st.skipMode ∧
    view (serFootnoteDefinitions (serKids cx cs) st) = view st
  | [], st, _, _ => ⟨rfl, rfl, rfl⟩
  | n :: cs, st, hw, hd => by
    have hwn : wellPlaced n = true ∧ isItemLike n = false ∧ wellPlacedDoc cs = true := by
      simp only [wellPlacedDoc, List.all_cons, wellPlacedList, Bool.and_eq_true, Bool.not_eq_true'] at hw ⊢
      exact ⟨hw.2.1, hw.1.1, hw.1.2, hw.2.2⟩
    obtain ⟨hw1, hi1, hw2⟩ := hwn
    rw [serFootnoteDefinitions, serKids, List.filter_cons]
    by_cases hf : n.isFootnoteDefinition = true
    · rw [if_pos hf]
      have hok := (ser_ok cx n (nextIsBracket cs) hw1).act hi1 st
      have ho : (ser cx n (nextIsBracket cs) st).output = st.output := by
        obtain ⟨v, p, ks⟩ := n
        cases v <;> simp [Node.isFootnoteDefinition, Node.value] at hf
        simp only [ser, dispatch]
        have hwl : wellPlacedList ks = true := by
          rw [wellPlaced] at hw1
          simp only [Bool.and_eq_true] at hw1
          exact hw1.2
        exact (serFootnoteDefinition_key cx _ (serKids_par cx ks hwl) st st rfl).2
      have ih := footnoteDefinitions_state (cx := cx) cs (ser cx n (nextIsBracket cs) st) hw2 (hok.dd hd)
      exact ⟨ih.1.trans ho, ih.2.1.trans hok.core.skip, ih.2.2.trans (hok.view hd)⟩
    · rw [if_neg hf]
      exact footnoteDefinitions_state cs st hw2 hd

theorem document_layout {cx : Cx} {p : Pos} {cs main tail : List Node} (hw : wellPlacedDoc cs = true)
    (ht : Trailing cs main tail) :
    Layout cx tail [] [] main (formatDoc cx (.mk .document p cs)).output := by
  obtain ⟨F, T, e, hF, hs⟩ := trailing_spec ht
  have hwm : wellPlacedDoc main = true := by
    have : ∀ l : List Node, wellPlacedList l = true ↔ ∀ n ∈ l, wellPlaced n = true := by
      intro l
      induction l with
      | nil => simp [wellPlacedList]
      | cons n l ih => simp [wellPlacedList, ih]
    rw [ht.eq] at hw
    simp only [wellPlacedDoc, Bool.and_eq_true, List.all_eq_true, this] at hw ⊢
    exact ⟨fun n hn => hw.1 n (by simp [hn]), fun n hn => hw.2 n (by simp [hn])⟩
  simp only [formatDoc, ser, dispatch, serDocument, serKids_nodes, hs]
  have hdrop : cs.drop (main.length + F.length) = T := by
    rw [ht.eq, e, ← List.append_assoc, List.drop_left' (by simp)]
  rw [hdrop]
  have h1 := recordLines_view (footnoteRefLinesList cs)
    ({ warnings := [] ++ undefinedWarnings cx cs } : St)
  have hrec : ∀ (ls : List (List Char × Nat)) (s : St), view (recordLines ls s) = view s := by
    intro ls
    induction ls with
    | nil => exact fun _ => rfl
    | cons l ls ih => exact fun s => (ih (recordReferenceLine l.1 l.2 s)).trans rfl
  have hrd := hrec (footnoteRefLinesList cs) ({ warnings := [] ++ undefinedWarnings cx cs } : St)
  obtain ⟨f1, f2, f3⟩ := footnoteDefinitions_state (cx := cx) cs
    (recordLines (footnoteRefLinesList cs) ({ warnings := [] ++ undefinedWarnings cx cs } : St)) hw
    (congrArg St.descriptionDetailsFirstList hrd)
  generalize serFootnoteDefinitions (serKids cx cs)
    (recordLines (footnoteRefLinesList cs) ({ warnings := [] ++ undefinedWarnings cx cs } : St)) = st at f1 f2 f3
  have hout : st.output = [] := f1.trans (congrArg RefView.output h1.1)
  have hinv : TopInv [] st := ⟨f2.trans h1.2.1, f3.trans hrd⟩
  have htl : ∀ prev st, serTopLoop cx prev (main.length + F.length - main.length) (serKids cx tail) st = (st, false) := by
    intro prev st
    rw [Nat.add_sub_cancel_left, e]
    exact loop_tail cx T (fun n hn => ht.tail n (by rw [e]; simp [hn])) F hF prev st
  have hT : T.filterMap Node.html? = tail.filterMap Node.html? := by
    rw [e, List.filterMap_append]
    have : F.filterMap Node.html? = [] := by
      rw [List.filterMap_eq_nil_iff]
      exact fun n hn => (footnote_facts (hF n hn)).2.2
    rw [this, List.nil_append]
  obtain ⟨t, l1, l2⟩ := loop_layout hT main [] st (main.length + F.length) (by omega) htl hinv hwm
  rw [hout] at l1 l2
  rw [← ht.eq, finishDoc] at l2
  simp only [List.getLast?_nil, List.nil_append] at l2
  have goal : Layout cx tail [] [] main _ := l2 ▸ l1
  exact goal

/-! ### Taking a layout apart -/

theorem layout_at {cx : Cx} {tail : List Node} {n : Node} {B : List Node} : ∀ (A : List Node)
    {out t : List Char} {before : List Node}, Layout cx tail out before (A ++ n :: B) t →
    (∀ m ∈ A, m.directive ≠ some .disableFile) →
    ∃ X t', t = X ++ t' ∧ Layout cx tail (out ++ X) (before ++ A) (n :: B) t'
  | [], out, t, before, h, _ => ⟨[], t, rfl, by simpa using h⟩
  | a :: A, out, t, before, h, hA => by
    have go : ∀ {Y t'}, Layout cx tail (out ++ Y) (before ++ [a]) (A ++ n :: B) t' →
        ∃ X t'', Y ++ t' = X ++ t'' ∧ Layout cx tail (out ++ X) (before ++ a :: A) (n :: B) t'' := by
      intro Y t' h'
      obtain ⟨X, t'', h1, h2⟩ := layout_at A h' (fun m hm => hA m (by simp [hm]))
      exact ⟨Y ++ X, t'', by rw [h1, List.append_assoc], by simpa using h2⟩
    cases h with
    | hidden _ _ _ _ _ hf h' => exact go (Y := []) (by simpa using h')
    | file _ defs _ _ _ literal hd _ _ => exact absurd hd (hA a (by simp))
    | directive _ defs t' _ _ _ literal h1 h2 h3 h4 h5 =>
      exact go (Y := defs ++ (if before = [] then [] else ['\n']) ++ literal) (by simpa using h5)
    | block _ defs text t' _ _ _ h1 h2 h3 h4 =>
      exact go (Y := defs ++ gapBetween before a ++ text) (by simpa using h4)

theorem layout_end {cx : Cx} {tail : List Node} : ∀ (A : List Node)
    {out t : List Char} {before : List Node}, Layout cx tail out before A t →
    (∀ m ∈ A, m.directive ≠ some .disableFile) →
    ∃ X defs html, t = X ++ defs ++ html ∧ Definitions cx (out ++ X) defs ∧
      htmlTail (out ++ X ++ defs) tail html
  | [], out, t, before, h, _ => by
    cases h with
    | done _ defs html _ h1 h2 => exact ⟨[], defs, html, rfl, by simpa using h1, by simpa using h2⟩
  | a :: A, out, t, before, h, hA => by
    have go : ∀ {Y t'}, Layout cx tail (out ++ Y) (before ++ [a]) A t' →
        ∃ X defs html, Y ++ t' = X ++ defs ++ html ∧ Definitions cx (out ++ X) defs ∧
          htmlTail (out ++ X ++ defs) tail html := by
      intro Y t' h'
      obtain ⟨X, defs, html, h1, h2, h3⟩ := layout_end A h' (fun m hm => hA m (by simp [hm]))
      exact ⟨Y ++ X, defs, html, by rw [h1]; simp, by simpa using h2, by simpa using h3⟩
    cases h with
    | hidden _ _ _ _ _ hf h' => exact go (Y := []) (by simpa using h')
    | file _ defs _ _ _ literal hd _ _ => exact absurd hd (hA a (by simp))
    | directive _ defs t' _ _ _ literal h1 h2 h3 h4 h5 =>
      exact go (Y := defs ++ (if before = [] then [] else ['\n']) ++ literal) (by simpa using h5)
    | block _ defs text t' _ _ _ h1 h2 h3 h4 =>
      exact go (Y := defs ++ gapBetween before a ++ text) (by simpa using h4)

/-- Every list has a trailing part. -/
theorem trailing_exists (cs : List Node) : ∃ main tail, Trailing cs main tail := by
  have key : ∀ r : List Node, ∃ main tail, Trailing r.reverse main tail := by
    intro r
    induction r with
    | nil => exact ⟨[], [], rfl, by simp, by simp⟩
    | cons n r ih =>
      obtain ⟨main, tail, h1, h2, h3⟩ := ih
      rw [List.reverse_cons, h1]
      by_cases hn : n.isPlainHtml = true ∨ n.isFootnoteDefinition = true
      · refine ⟨main, tail ++ [n], by simp, fun m hm => ?_, h3⟩
        rcases List.mem_append.mp hm with hm | hm
        · exact h2 m hm
        · rw [List.mem_singleton.mp hm]; exact hn
      · refine ⟨main ++ tail ++ [n], [], by simp, by simp, fun m hm => ?_⟩
        rw [List.getLast?_append] at hm
        have : n = m := by simpa using hm
        subst this
        simpa using hn
  have := key cs.reverse
  rwa [List.reverse_reverse] at this

/-- A node that is neither HTML text nor a footnote definition is before the trailing part,
and so is everything before it. -/
theorem trailing_split {A B main tail : List Node} {n : Node} (h : Trailing (A ++ n :: B) main tail)
    (hn : n.isPlainHtml = false ∧ n.isFootnoteDefinition = false) :
    ∃ C, main = A ++ n :: C ∧ B = C ++ tail := by
  have he := h.eq
  rcases List.append_eq_append_iff.mp he with ⟨C, h1, h2⟩ | ⟨C, h1, h2⟩
  · cases C with
    | nil =>
      rw [List.nil_append] at h2
      have := h.tail n (by rw [← h2]; simp)
      simp [hn.1, hn.2] at this
    | cons c C =>
      rw [List.cons_append, List.cons.injEq] at h2
      exact ⟨C, by rw [h1, ← h2.1], h2.2⟩
  · have := h.tail n (by rw [h2]; simp)
    simp [hn.1, hn.2] at this

/-! ### Off and covered -/

theorem off_of_covered {A : List Node} {n : Node} (h : Covered A n)
    (hn : ∀ X d Y e Z, A = X ++ d :: (Y ++ e :: Z) → isSwitch e = true →
      (d.directive = some .disable → (∀ m ∈ Y, m.directive ≠ some .enable) →
        e.directive = some .enable) ∧
      (d.directive = some .disableNextSection → ∃ m ∈ Y, startsSection m = true)) : Off A n := by
  cases h with
  | disable X d B e hd hB =>
    refine .disable X d B e hd (fun m hm => ?_)
    obtain ⟨Y, Z, rfl⟩ := List.append_of_mem hm
    cases hs : isSwitch m with
    | false => rfl
    | true =>
      exact absurd ((hn X d Y m Z e hs).1 hd (fun x hx => hB x (by simp [hx]))) (hB m hm)
  | nextLine X d e hd => exact .nextLine X d [] e hd (by simp) (by simp)
  | nextSection X d B e hd hB hb =>
    refine .nextSection X d B e hd (fun m hm => ?_) hB hb
    obtain ⟨Y, Z, rfl⟩ := List.append_of_mem hm
    cases hs : isSwitch m with
    | false => rfl
    | true =>
      obtain ⟨x, hx, hx'⟩ := (hn X d Y m Z e hs).2 hd
      rw [hB x (by simp [hx])] at hx'
      cases hx'

theorem covered_of_off {A : List Node} {n : Node} (h : Off A n)
    (hn : ∀ X d e Y, A = X ++ d :: e :: Y → d.directive = some .disableNextLine →
      isTextBlock e = true) : Covered A n := by
  cases h with
  | disable X d B e hd hB =>
    refine .disable X d B e hd (fun m hm he => ?_)
    have := hB m hm
    simp [isSwitch, he] at this
  | nextLine X d B e hd hB hB' =>
    cases B with
    | nil => exact .nextLine X d e hd
    | cons b B =>
      have h1 := hn X d b B e hd
      rw [hB' b (by simp)] at h1
      cases h1
  | nextSection X d B e hd _ hB hb => exact .nextSection X d B e hd hB hb

/-! ### Lines -/

theorem linesGo_acc (acc s : List Char) (h : acc ≠ [] ∨ s ≠ []) : linesGo acc s ≠ [] := by
  induction s generalizing acc with
  | nil => simp [linesGo]; simpa using h
  | cons c cs ih =>
    rw [linesGo]
    split
    · simp
    · exact ih _ (by simp)

/-- Joining the lines of a text without carriage returns gives the text back. -/
theorem joinWith_linesGo (s : List Char) : ∀ acc : List Char, '\r' ∉ acc → '\r' ∉ s → '\n' ∉ acc →
    acc ≠ [] ∨ s ≠ [] →
    joinWith ['\n'] (linesGo acc s) ++ (if s.getLast? = some '\n' then ['\n'] else []) =
      acc.reverse ++ s := by
  induction s with
  | nil =>
    intro acc _ _ _ h
    have : acc ≠ [] := by simpa using h
    simp [linesGo, this, joinWith]
  | cons c cs ih =>
    intro acc ha hs hn h
    have hcs : '\r' ∉ cs := fun h => hs (by simp [h])
    rw [linesGo]
    by_cases hc : c = '\n'
    · subst hc
      rw [if_pos rfl]
      have hstrip : stripCR acc.reverse = acc.reverse := by
        rw [stripCR, if_neg]
        intro hl
        exact ha (List.mem_reverse.mp (List.mem_of_getLast? hl))
      rw [hstrip]
      cases hcs' : cs with
      | nil => simp [linesGo, joinWith]
      | cons d ds =>
        have := ih [] (by simp) hcs (by simp) (by simp [hcs'])
        rw [hcs'] at this
        have hne := linesGo_acc [] (d :: ds) (by simp)
        rw [joinWith_cons _ _ hne, List.append_assoc, List.append_assoc]
        rw [List.getLast?_cons_cons]
        rw [this]
        simp
    · rw [if_neg hc]
      have := ih (c :: acc) (fun hm => by
        rcases List.mem_cons.mp hm with h | h
        · exact hs (List.mem_cons.mpr (.inl h))
        · exact ha h) hcs
        (by simp [hn]; exact fun h => hc h.symm) (by simp)
      cases hcs' : cs with
      | nil =>
        rw [hcs'] at this
        simpa [hc] using this
      | cons d ds =>
        rw [hcs'] at this
        rw [List.getLast?_cons_cons, this]
        simp

/-- The lines after the `k`-th newline. -/
theorem drop_lines (pre rest : List Char) : ∀ acc : List Char,
    (linesGo acc (pre ++ '\n' :: rest)).drop (pre.count '\n' + 1) = lines rest := by
  induction pre with
  | nil => intro acc; simp [linesGo, lines]
  | cons c cs ih =>
    intro acc
    rw [List.cons_append, linesGo]
    by_cases hc : c = '\n'
    · rw [if_pos hc, hc, List.count_cons_self, List.drop_succ_cons]
      exact ih []
    · rw [if_neg hc, List.count_cons_of_ne (by simpa using hc)]
      exact ih _

theorem getLast_append_cons (pre : List Char) {rest : List Char} (h : rest ≠ []) :
    (pre ++ '\n' :: rest).getLast? = rest.getLast? := by
  cases rest with
  | nil => exact absurd rfl h
  | cons c cs =>
    rw [List.getLast?_append, List.getLast?_cons_cons]
    cases hx : (c :: cs).getLast? with
    | none => simp at hx
    | some x => rfl

end Hongdown
