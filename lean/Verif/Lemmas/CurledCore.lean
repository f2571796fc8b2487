import Verif.Lemmas.Core
import Verif.Spec.Marks

/-!
# Blocks with their quotation marks replaced
-/

namespace Hongdown.Model
open Spec

theorem curlText_curly {cx : Cx} (ho : DashesOk cx.opts.punct) {t : List Char} (h : SpanOk (.text t)) : Curly t (curlText cx t) := by
  have key : ∀ ls : List (List Char), (∀ l ∈ ls, TextPart l) → Pairs Curly ls (ls.map (transformPunctuation cx.uni cx.opts.punct)) := by
    intro ls
    induction ls with
    | nil => intro _; trivial
    | cons l ls ih => exact fun hl => ⟨transform_curly ho (hl l (by simp)), ih fun x hx => hl x (by simp [hx])⟩
  have := curly_join (x := ['\n']) (key _ (splitOn_parts h))
  rwa [join_splitOn] at this

theorem curlSpan_curly {cx : Cx} (ho : DashesOk cx.opts.punct) {s : Span} (h : SpanOk s) : Curly (spanText s) (spanText (curlSpan cx s)) := by
  cases s with
  | text t => exact curlText_curly ho h
  | code t => exact curly_refl _

theorem curlSpan_ok {cx : Cx} (ho : DashesOk cx.opts.punct) {s : Span} (h : SpanOk s) : SpanOk (curlSpan cx s) := by
  cases s with
  | code t => exact h
  | text t =>
    have hc := curlText_curly (cx := cx) ho h
    refine ⟨?_, ?_, fun e => h.2.2.1 ((curly_infix (by decide) hc).2 e), fun e => h.2.2.2.1 ((curly_infix (by decide) hc).2 e),
      curly_inWords hc rfl h.2.2.2.2⟩
    · intro e
      rw [e] at hc
      have := pairs_length hc
      exact h.1 (List.eq_nil_of_length_eq_zero this)
    · have := curly_char (f := fun c => plainChar c || gapChar c) (by decide) hc (fun c hc => by simpa using h.2.1 c hc)
      intro c hc
      simpa using this c hc

theorem curlSpans_curly {cx : Cx} (ho : DashesOk cx.opts.punct) : ∀ {ss : List Span}, SpansOk ss →
    Curly (spansText ss) (spansText (ss.map (curlSpan cx)))
  | [], _ => trivial
  | s :: r, h => by
    rw [List.map_cons, spansText_cons, spansText_cons]
    exact pairs_append (curlSpan_curly ho h.1) (curlSpans_curly ho h.2.2)

theorem curl_differ (cx : Cx) (s u : Span) : differ (curlSpan cx s) (curlSpan cx u) = differ s u := by cases s <;> cases u <;> rfl

theorem curlSpans_ok {cx : Cx} (ho : DashesOk cx.opts.punct) : ∀ {ss : List Span}, SpansOk ss → SpansOk (ss.map (curlSpan cx))
  | [], _ => trivial
  | s :: r, h => by
    refine ⟨curlSpan_ok ho h.1, ?_, curlSpans_ok ho h.2.2⟩
    intro u hu
    rw [List.head?_map, Option.mem_def, Option.map_eq_some_iff] at hu
    obtain ⟨v, hv, rfl⟩ := hu
    rw [curl_differ]
    exact h.2.1 v hv

theorem curlRuns_curly {cx : Cx} (ho : DashesOk cx.opts.punct) : ∀ {a : List Run} {p : Option Char}, RunsOk p a →
    Curly (runsText a) (runsText (a.map (curlRun cx)))
  | [], _, _ => trivial
  | .span s :: r, _, h => by
    rw [List.map_cons, runsText_cons, runsText_cons]
    exact pairs_append (curlSpan_curly ho h.1) (curlRuns_curly ho h.2.2)
  | .emph d strong inner :: r, _, h => by
    rw [List.map_cons, runsText_cons, runsText_cons]
    exact pairs_append (pairs_append (pairs_append (curly_refl _) (curlSpans_curly ho h.2.1)) (curly_refl _)) (curlRuns_curly ho h.2.2.2.2)
  | .link t :: r, _, h => by
    rw [List.map_cons, runsText_cons, runsText_cons]
    exact pairs_append (curly_refl _) (curlRuns_curly ho h.2.2.2)
  | .direct image t url :: r, _, h => by
    rw [List.map_cons, runsText_cons, runsText_cons]
    exact pairs_append (curly_refl _) (curlRuns_curly ho h.2.2.2)

theorem curl_firstSpan (cx : Cx) (a : List Run) : firstSpan (a.map (curlRun cx)) = (firstSpan a).map (curlSpan cx) := by
  cases a with
  | nil => rfl
  | cons r a => cases r <;> rfl

theorem curlRuns_ok {cx : Cx} (ho : DashesOk cx.opts.punct) : ∀ {a : List Run} {p q : Option Char}, RunsOk p a → p.map straight = q.map straight →
    RunsOk q (a.map (curlRun cx))
  | [], _, _, _, _ => trivial
  | .span s :: r, _, _, h, _ => by
    refine ⟨curlSpan_ok ho h.1, ?_, curlRuns_ok ho h.2.2 (curly_last (curlSpan_curly ho h.1))⟩
    intro u hu
    change u ∈ firstSpan (r.map (curlRun cx)) at hu
    rw [curl_firstSpan, Option.mem_def, Option.map_eq_some_iff] at hu
    obtain ⟨v, hv, rfl⟩ := hu
    rw [curl_differ]
    exact h.2.1 v hv
  | .emph d strong inner :: r, p, q, h, e => by
    have h1 := curlSpans_curly (cx := cx) ho h.2.1
    have h2 := curlRuns_curly (cx := cx) ho h.2.2.2.2
    refine ⟨h.1, curlSpans_ok ho h.2.1, ?_, ?_, curlRuns_ok ho h.2.2.2.2 rfl⟩
    · have h3 := h.2.2.1
      have e2 : decide (p = some '(') = decide (q = some '(') := by rw [decide_eq_decide]; exact straight_some e (by decide)
      unfold opens at h3 ⊢
      rw [straight_all e (by decide), straight_any (curly_head h1) (by decide), straight_any (f := Char.isAlphanum) (curly_head h1) (by decide), e2] at h3
      exact h3
    · have h3 := h.2.2.2.1
      unfold closes at h3 ⊢
      rw [straight_any (curly_last h1) (by decide), straight_all (curly_head h2) (by decide)] at h3
      exact h3
  | .link t :: r, p, q, h, e => by
    refine ⟨h.1, ?_, ?_, curlRuns_ok ho h.2.2.2 rfl⟩
    · rw [← straight_all e (by decide)]; exact h.2.1
    · change (runsText (r.map (curlRun cx))).head?.all afterLink = true
      rw [← straight_all (curly_head (curlRuns_curly ho h.2.2.2)) (by decide)]; exact h.2.2.1
  | .direct image t url :: r, p, q, h, e => by
    refine ⟨h.1, ?_, ?_, curlRuns_ok ho h.2.2.2 rfl⟩
    · rw [← straight_all e (by decide)]; exact h.2.1
    · change (runsText (r.map (curlRun cx))).head?.all afterLink = true
      rw [← straight_all (curly_head (curlRuns_curly ho h.2.2.2)) (by decide)]; exact h.2.2.1

theorem curlLines_content {cx : Cx} (ho : DashesOk cx.opts.punct) {ls : List (List Char)} {a : List Run} (ha : ContentReads ls a) :
    ContentReads (curlLines cx ls) (a.map (curlRun cx)) := by
  rw [curlLines_reads ha]
  exact ⟨(join_splitOn _ _).symm, curlRuns_ok ho ha.2 rfl⟩

theorem curlLines_pairs {cx : Cx} (ho : DashesOk cx.opts.punct) {ls : List (List Char)} (hne : ls ≠ []) (ht : ∀ l ∈ ls, TextLine l) {a : List Run}
    (ha : ContentReads ls a) : Pairs Curly ls (curlLines cx ls) := by
  have := curly_splitOn (d := '\n') (by decide) (curlRuns_curly (cx := cx) ho ha.2)
  rwa [ha.1, splitOn_join hne (fun l hl => textLine_nl (ht l hl)), ← curlLines_reads ha] at this

theorem curlLines_text {cx : Cx} (ho : DashesOk cx.opts.punct) {ls : List (List Char)} (hne : ls ≠ []) (ht : ∀ l ∈ ls, TextLine l) {a : List Run}
    (ha : ContentReads ls a) : curlLines cx ls ≠ [] ∧ ∀ l ∈ curlLines cx ls, TextLine l := by
  have h := curlLines_pairs (cx := cx) ho hne ht ha
  constructor
  · intro e
    rw [e] at h
    exact hne (List.eq_nil_of_length_eq_zero (pairs_length h))
  · intro l hl
    obtain ⟨m, hm, h'⟩ := pairs_right h l hl
    exact curly_line h' (ht m hm)

theorem curlBlock_valid {cx : Cx} (ho : DashesOk cx.opts.punct) {b : CoreBlock} (h : CoreValid b) : CoreValid (curlBlock cx b) := by
  cases b with
  | heading level ls =>
    obtain ⟨a, ha⟩ := h.2.2.2
    have := curlLines_text (cx := cx) ho h.2.1 h.2.2.1 ha
    exact ⟨h.1, this.1, this.2, _, curlLines_content ho ha⟩
  | paragraph ls =>
    obtain ⟨a, ha⟩ := h.2.2
    have := curlLines_text (cx := cx) ho h.1 h.2.1 ha
    exact ⟨this.1, this.2, _, curlLines_content ho ha⟩
  | _ => exact h

theorem curlRun_link (cx : Cx) (a : List Run) (t : List Char) : .link t ∈ a.map (curlRun cx) ↔ .link t ∈ a := by
  rw [List.mem_map]
  constructor
  · rintro ⟨x, hx, e⟩
    cases x <;> cases e
    exact hx
  · exact fun h => ⟨_, h, rfl⟩

theorem curlBlock_content {cx : Cx} (ho : DashesOk cx.opts.punct) {links : LinkMap} {b : CoreBlock} (h : HasContent links b) : HasContent links (curlBlock cx b) := by
  have key : ∀ {ls : List (List Char)}, (∃ a, ContentReads ls a ∧ Linked links a) → ∃ a, ContentReads (curlLines cx ls) a ∧ Linked links a := by
    rintro ls ⟨a, ha, hl⟩
    exact ⟨_, curlLines_content ho ha, fun t ht => hl t ((curlRun_link cx a t).1 ht)⟩
  cases b with
  | heading level ls => exact key h
  | paragraph ls => exact key h
  | _ => trivial

/-! ### Which marks are replaced -/

theorem pairs_comp {α β γ : Type} {R : α → β → Prop} {S : β → γ → Prop} : ∀ {s : List α} {t : List β} {u : List γ}, Pairs R s t → Pairs S t u →
    Pairs (fun a c => ∃ b, R a b ∧ S b c) s u
  | [], [], [], _, _ => trivial
  | _ :: _, _ :: _, _ :: _, h, h' => ⟨⟨_, h.1, h'.1⟩, pairs_comp h.2 h'.2⟩

theorem curledText_pairs {o : PunctOpts} : ∀ {s t : List Char}, Pairs (CurledChar o) s t → CurledText o s t
  | [], [], _ => trivial
  | _ :: _, _ :: _, h => ⟨h.1, curledText_pairs h.2⟩

theorem curledText_to {o : PunctOpts} : ∀ {s t : List Char}, CurledText o s t → Pairs (CurledChar o) s t
  | [], [], _ => trivial
  | _ :: _, _ :: _, h => ⟨h.1, curledText_to h.2⟩

theorem double_pairs (b : Bool) (s : List Char) : Pairs (fun c d => if c = '"' ∧ b = true then d = '“' ∨ d = '”' else d = c) s (stDbl b s) := by
  cases b with
  | false => exact pairs_refl (fun c => by simp) s
  | true =>
    have key : ∀ (s : List Char) (st : Bool) (p : Option Char),
        Pairs (fun c d => if c = '"' ∧ true = true then d = '“' ∨ d = '”' else d = c) s (ctxMap doubleStep st p s) := by
      intro s
      induction s with
      | nil => intro _ _; trivial
      | cons c s ih =>
        intro st p
        refine ⟨?_, ih _ _⟩
        rcases doubleStep_cases st p c s with ⟨hc, h⟩ | ⟨rfl, h | h⟩
        · rw [h, if_neg (fun e => hc e.1)]
        · rw [h]; simp
        · rw [h]; simp
    exact key s _ _

theorem apostrophe_pairs {u : Uni} (hu : AsciiLetters u) (b : Bool) {s : List Char} (hs : inWords none s = true) :
    Pairs (fun c d => if c = '\'' ∧ b = true then d = '’' else d = c) s (stApo u b s) := by
  cases b with
  | false => exact pairs_refl (fun c => by simp) s
  | true =>
    have key : ∀ (s : List Char) (n : Nat) (p : Option Char), inWords p s = true →
        Pairs (fun c d => if c = '\'' ∧ true = true then d = '’' else d = c) s (ctxMap (apostropheStep u) n p s) := by
      intro s
      induction s with
      | nil => intro _ _ _; trivial
      | cons c s ih =>
        intro n p h
        rw [inWords, Bool.and_eq_true] at h
        refine ⟨?_, ih _ _ h.2⟩
        by_cases hc : c = '\''
        · subst hc
          have h1 := h.1
          simp only [ne_eq, not_true_eq_false, decide_false, Bool.false_or, Bool.and_eq_true] at h1
          have any : ∀ q : Option Char, q.any Char.isAlpha = true → q.any u.alphanumeric = true := by
            intro q hq
            cases q with
            | none => cases hq
            | some d => exact (hu d hq).2
          rw [if_pos ⟨rfl, rfl⟩, apostropheStep, if_pos rfl]
          simp only [any _ h1.1, any _ h1.2, Bool.and_self, if_true]
          rfl
        · show if c = '\'' ∧ true = true then _ else _
          rw [if_neg (fun e => hc e.1), apostropheStep, if_neg hc]
    exact key s _ _ hs

theorem transform_curled {cx : Cx} (ho : DashesOk cx.opts.punct) (hu : AsciiLetters cx.uni) {l : List Char} (h : TextPart l) :
    Pairs (CurledChar cx.opts.punct) l (transformPunctuation cx.uni cx.opts.punct l) := by
  rw [transform_quotes ho h]
  have h1 := double_pairs cx.opts.punct.curlyDouble l
  have hw : inWords none (stDbl cx.opts.punct.curlyDouble l) = true := by
    refine curly_inWords (pairs_imp (fun c d hc => ?_) h1) rfl h.2.2.2
    split at hc
    · next e => exact .inr (.inl ⟨e.1, hc⟩)
    · exact .inl hc
  generalize stDbl cx.opts.punct.curlyDouble l = t at h1 hw ⊢
  have e2 : stSgl cx.uni cx.opts.punct.curlySingle t = t := by
    unfold stSgl
    rw [single_words _ (fun c hc => (hu c hc).1) hw, ite_self]
  rw [e2]
  refine pairs_imp ?_ (pairs_comp h1 (apostrophe_pairs hu cx.opts.punct.curlyApostrophes hw))
  rintro a c ⟨b, hb, hc⟩
  unfold CurledChar
  split at hb
  · next e =>
    rw [if_pos e]
    rcases hb with rfl | rfl
    · rw [if_neg (fun e => absurd e.1 (by decide))] at hc; exact .inl hc
    · rw [if_neg (fun e => absurd e.1 (by decide))] at hc; exact .inr hc
  · next e => subst hb; rw [if_neg e]; exact hc

theorem curled_same (o : PunctOpts) {c : Char} (hc : notMark c = true) : CurledChar o c c := by
  unfold CurledChar
  rw [if_neg (by rintro ⟨rfl, _⟩; cases hc), if_neg (by rintro ⟨rfl, _⟩; cases hc)]

theorem pairs_join {R : Char → Char → Prop} (hn : R '\n' '\n') : ∀ {ls ms : List (List Char)}, Pairs (Pairs R) ls ms →
    Pairs R (joinWith ['\n'] ls) (joinWith ['\n'] ms)
  | [], [], _ => trivial
  | [_], [_], h => h.1
  | l :: l' :: ls, m :: m' :: ms, h => by
    rw [joinWith_cons _ l (by simp), joinWith_cons _ m (by simp)]
    exact pairs_append (pairs_append h.1 ⟨hn, trivial⟩) (pairs_join hn (ls := l' :: ls) (ms := m' :: ms) h.2)
  | [_], _ :: _ :: _, h => absurd h.2 id
  | _ :: _ :: _, [_], h => absurd h.2 id

theorem curlText_curled {cx : Cx} (ho : DashesOk cx.opts.punct) (hu : AsciiLetters cx.uni) {t : List Char} (h : SpanOk (.text t)) :
    CurledText cx.opts.punct t (curlText cx t) := by
  have key : ∀ ls : List (List Char), (∀ l ∈ ls, TextPart l) →
      Pairs (Pairs (CurledChar cx.opts.punct)) ls (ls.map (transformPunctuation cx.uni cx.opts.punct)) := by
    intro ls
    induction ls with
    | nil => intro _; trivial
    | cons l ls ih => exact fun hl => ⟨transform_curled ho hu (hl l (by simp)), ih fun x hx => hl x (by simp [hx])⟩
  have := pairs_join (curled_same _ (by decide)) (key _ (splitOn_parts h))
  rw [join_splitOn] at this
  exact curledText_pairs this

theorem curlSpan_curled {cx : Cx} (ho : DashesOk cx.opts.punct) (hu : AsciiLetters cx.uni) {s : Span} (h : SpanOk s) :
    CurledSpan cx.opts.punct s (curlSpan cx s) := by
  cases s with
  | text t => exact curlText_curled ho hu h
  | code t => rfl

theorem curlSpans_curled {cx : Cx} (ho : DashesOk cx.opts.punct) (hu : AsciiLetters cx.uni) : ∀ {ss : List Span}, SpansOk ss →
    CurledSpans cx.opts.punct ss (ss.map (curlSpan cx))
  | [], _ => trivial
  | _ :: _, h => ⟨curlSpan_curled ho hu h.1, curlSpans_curled ho hu h.2.2⟩

theorem curlRuns_curled {cx : Cx} (ho : DashesOk cx.opts.punct) (hu : AsciiLetters cx.uni) : ∀ {a : List Run} {p : Option Char}, RunsOk p a →
    CurledRuns cx.opts.punct a (a.map (curlRun cx))
  | [], _, _ => trivial
  | .span _ :: _, _, h => ⟨curlSpan_curled ho hu h.1, curlRuns_curled ho hu h.2.2⟩
  | .emph _ _ _ :: _, _, h => ⟨⟨rfl, rfl, curlSpans_curled ho hu h.2.1⟩, curlRuns_curled ho hu h.2.2.2.2⟩
  | .link _ :: _, _, h => ⟨rfl, curlRuns_curled ho hu h.2.2.2⟩
  | .direct _ _ _ :: _, _, h => ⟨⟨rfl, rfl, rfl⟩, curlRuns_curled ho hu h.2.2.2⟩

theorem curlLines_curled {cx : Cx} (ho : DashesOk cx.opts.punct) (hu : AsciiLetters cx.uni) {ls : List (List Char)} (hne : ls ≠ [])
    (ht : ∀ l ∈ ls, TextLine l) {a : List Run} (ha : ContentReads ls a) : CurledLines cx.opts.punct ls (curlLines cx ls) :=
  ⟨pairs_length (curlLines_pairs ho hne ht ha), a, _, ha, curlLines_content ho ha, curlRuns_curled ho hu ha.2⟩

theorem curlBlock_curled {cx : Cx} (ho : DashesOk cx.opts.punct) (hu : AsciiLetters cx.uni) {b : CoreBlock} (h : CoreValid b) :
    CurledBlock cx.opts.punct b (curlBlock cx b) := by
  cases b with
  | heading level ls =>
    obtain ⟨a, ha⟩ := h.2.2.2
    exact ⟨rfl, curlLines_curled ho hu h.2.1 h.2.2.1 ha⟩
  | paragraph ls =>
    obtain ⟨a, ha⟩ := h.2.2
    exact curlLines_curled ho hu h.1 h.2.1 ha
  | code _ _ => exact ⟨rfl, rfl⟩
  | rule => trivial
  | definition _ _ => exact ⟨rfl, rfl⟩

theorem curlDoc_curled {cx : Cx} (ho : DashesOk cx.opts.punct) (hu : AsciiLetters cx.uni) : ∀ {bs : List CoreBlock}, (∀ b ∈ bs, CoreValid b) →
    CurledDoc cx.opts.punct bs (bs.map (curlBlock cx))
  | [], _ => trivial
  | b :: _, h => ⟨curlBlock_curled ho hu (h b (by simp)), curlDoc_curled ho hu fun c hc => h c (by simp [hc])⟩

/-! ### No marks are left to be replaced -/

theorem curled_kept {cx : Cx} (hu : AsciiLetters cx.uni) {s t : List Char} (h : CurledText cx.opts.punct s t) : MarksKept cx t := by
  have key : ∀ d ∈ t, (d = '"' → cx.opts.punct.curlyDouble = false) ∧ (d = '\'' → cx.opts.punct.curlyApostrophes = false) := by
    intro d hd
    obtain ⟨c, _, hc⟩ := pairs_right (curledText_to h) d hd
    unfold CurledChar at hc
    split at hc
    · rcases hc with rfl | rfl
      · exact ⟨fun e => absurd e (by decide), fun e => absurd e (by decide)⟩
      · exact ⟨fun e => absurd e (by decide), fun e => absurd e (by decide)⟩
    · next h1 =>
      split at hc
      · subst hc
        exact ⟨fun e => absurd e (by decide), fun e => absurd e (by decide)⟩
      · next h2 =>
        subst hc
        exact ⟨fun e => Bool.eq_false_iff.2 fun e' => h1 ⟨e, e'⟩, fun e => Bool.eq_false_iff.2 fun e' => h2 ⟨e, e'⟩⟩
  exact ⟨fun hm => (key _ hm).1 rfl, fun hm => ⟨(key _ hm).2 rfl, fun c hc => (hu c hc).1⟩⟩

theorem marksKept_append {cx : Cx} {s t : List Char} (hs : MarksKept cx s) (ht : MarksKept cx t) : MarksKept cx (s ++ t) := by
  refine ⟨fun hm => ?_, fun hm => ?_⟩
  · rcases List.mem_append.1 hm with h | h
    · exact hs.1 h
    · exact ht.1 h
  · rcases List.mem_append.1 hm with h | h
    · exact hs.2 h
    · exact ht.2 h

theorem marksKept_nil (cx : Cx) : MarksKept cx [] := ⟨by simp, by simp⟩

theorem curlSpan_marks {cx : Cx} (ho : DashesOk cx.opts.punct) (hu : AsciiLetters cx.uni) {s : Span} (h : SpanOk s) :
    MarksKept cx (spanWords (curlSpan cx s)) := by
  cases s with
  | text t => exact curled_kept hu (curlText_curled ho hu h)
  | code t => exact marksKept_nil cx

theorem curlSpans_marks {cx : Cx} (ho : DashesOk cx.opts.punct) (hu : AsciiLetters cx.uni) : ∀ {ss : List Span}, SpansOk ss →
    MarksKept cx ((ss.map (curlSpan cx)).flatMap spanWords)
  | [], _ => marksKept_nil cx
  | _ :: _, h => by
    rw [List.map_cons, List.flatMap_cons]
    exact marksKept_append (curlSpan_marks ho hu h.1) (curlSpans_marks ho hu h.2.2)

theorem curlRuns_marks {cx : Cx} (ho : DashesOk cx.opts.punct) (hu : AsciiLetters cx.uni) : ∀ {a : List Run} {p : Option Char}, RunsOk p a →
    MarksKept cx (a.flatMap linkWords) → MarksKept cx ((a.map (curlRun cx)).flatMap runWords)
  | [], _, _, _ => marksKept_nil cx
  | .span s :: r, _, h, hq => by
    rw [List.flatMap_cons] at hq
    rw [List.map_cons, List.flatMap_cons]
    exact marksKept_append (curlSpan_marks ho hu h.1) (curlRuns_marks ho hu h.2.2 (marksKept_mono hq (List.subset_append_right _ _)))
  | .emph _ _ inner :: r, _, h, hq => by
    rw [List.flatMap_cons] at hq
    rw [List.map_cons, List.flatMap_cons]
    exact marksKept_append (curlSpans_marks ho hu h.2.1) (curlRuns_marks ho hu h.2.2.2.2 (marksKept_mono hq (List.subset_append_right _ _)))
  | .link t :: r, _, h, hq => by
    rw [List.flatMap_cons] at hq
    rw [List.map_cons, List.flatMap_cons]
    exact marksKept_append (marksKept_mono hq (List.subset_append_left _ _)) (curlRuns_marks ho hu h.2.2.2 (marksKept_mono hq (List.subset_append_right _ _)))
  | .direct _ t _ :: r, _, h, hq => by
    rw [List.flatMap_cons] at hq
    rw [List.map_cons, List.flatMap_cons]
    exact marksKept_append (marksKept_mono hq (List.subset_append_left _ _)) (curlRuns_marks ho hu h.2.2.2 (marksKept_mono hq (List.subset_append_right _ _)))

theorem curlLines_keeps {cx : Cx} (ho : DashesOk cx.opts.punct) (hu : AsciiLetters cx.uni) {ls : List (List Char)} {a : List Run}
    (ha : ContentReads ls a) (hq : LinkMarksKept cx ls) : LinesKept cx (curlLines cx ls) := by
  intro b hb
  rw [content_unique hb (curlLines_content ho ha)]
  refine ⟨curlRuns_marks ho hu ha.2 (hq a ha).1, fun r hr => ?_⟩
  obtain ⟨x, hx, rfl⟩ := List.mem_map.1 hr
  have := (hq a ha).2 x hx
  cases x <;> first | exact this | exact id

theorem blockLinks_marks {cx : Cx} {b : CoreBlock} (h : BlockMarks cx b) : BlockLinks cx b := by
  cases b with
  | heading _ _ => exact h.1
  | paragraph _ => exact h
  | _ => trivial

theorem curlBlock_fits {cx : Cx} (ho : DashesOk cx.opts.punct) (hu : AsciiLetters cx.uni) {b : CoreBlock} (hv : CoreValid b) (h : BlockMarks cx b) :
    BlockFits cx (curlBlock cx b) := by
  cases b with
  | heading level ls =>
    obtain ⟨a, ha⟩ := hv.2.2.2
    exact ⟨h.2 _ (curlLines_curled ho hu hv.2.1 hv.2.2.1 ha), curlLines_keeps ho hu ha h.1⟩
  | paragraph ls =>
    obtain ⟨a, ha⟩ := hv.2.2
    exact curlLines_keeps ho hu ha h
  | code _ _ => exact h
  | _ => trivial

end Hongdown.Model
