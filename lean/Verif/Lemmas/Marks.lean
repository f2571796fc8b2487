import Verif.Spec.Core
import Verif.Lemmas.Content
import Verif.Lemmas.PunctPipeline
import Verif.Lemmas.Pairs

/-!
# Replaced quotation marks

Lists of characters that differ in quotation marks only.
-/

namespace Hongdown.Model
open Spec

/-- A character and what may be written for it. -/
def Curl (c d : Char) : Prop := d = c ∨ (c = '"' ∧ (d = '“' ∨ d = '”')) ∨ (c = '\'' ∧ (d = '‘' ∨ d = '’'))

theorem curl_trans (a b c : Char) (h : Curl a b) (h' : Curl b c) : Curl a c := by
  rcases h with rfl | ⟨rfl, rfl | rfl⟩ | ⟨rfl, rfl | rfl⟩
  · exact h'
  all_goals
    rcases h' with rfl | ⟨h, _⟩ | ⟨h, _⟩
    · simp [Curl]
    all_goals exact absurd h (by decide)

/-- Text with its quotation marks replaced. -/
abbrev Curly := Pairs Curl

theorem curly_refl (s : List Char) : Curly s s := pairs_refl (fun _ => .inl rfl) s

theorem ctxMap_curly {σ : Type} (f : σ → Option Char → Char → List Char → Char × σ) (hf : ∀ st p c r, Curl c (f st p c r).1) :
    ∀ (s : List Char) (st : σ) (p : Option Char), Curly s (ctxMap f st p s)
  | [], _, _ => trivial
  | c :: s, st, p => ⟨hf st p c s, ctxMap_curly f hf s _ _⟩

theorem double_curly (s : List Char) : Curly s (transformDoubleQuotes s) := by
  refine ctxMap_curly _ (fun st p c r => ?_) s _ _
  rcases doubleStep_cases st p c r with ⟨_, h⟩ | ⟨rfl, h | h⟩ <;> rw [h] <;> simp [Curl]

theorem single_curly (u : Uni) (s : List Char) : Curly s (transformSingleQuotes u s) := by
  refine ctxMap_curly _ (fun st p c r => ?_) s _ _
  rcases singleStep_cases u st p c r with ⟨_, h⟩ | ⟨rfl, _, h⟩ | ⟨rfl, _, h | h⟩ <;> rw [h] <;> simp [Curl]

theorem apostrophes_curly (u : Uni) (s : List Char) : Curly s (transformApostrophes u s) := by
  refine ctxMap_curly _ (fun st p c r => ?_) s _ _
  rcases apostropheStep_cases u st p c r with ⟨_, h⟩ | ⟨rfl, h⟩ | ⟨rfl, h⟩ <;> rw [h] <;> simp [Curl]

theorem quotes_curly (u : Uni) (o : PunctOpts) (s : List Char) :
    Curly s (stApo u o.curlyApostrophes (stSgl u o.curlySingle (stDbl o.curlyDouble s))) := by
  have h1 : Curly s (stDbl o.curlyDouble s) := by
    unfold stDbl; split
    · exact double_curly s
    · exact curly_refl s
  generalize stDbl o.curlyDouble s = t at h1 ⊢
  have h2 : Curly t (stSgl u o.curlySingle t) := by
    unfold stSgl; split
    · exact single_curly u t
    · exact curly_refl t
  generalize stSgl u o.curlySingle t = v at h2 ⊢
  have h3 : Curly v (stApo u o.curlyApostrophes v) := by
    unfold stApo; split
    · exact apostrophes_curly u v
    · exact curly_refl v
  exact pairs_trans curl_trans (pairs_trans curl_trans h1 h2) h3

/-! ### One character for each kind of mark -/

/-- The straight mark for a curly one. -/
def straight (c : Char) : Char := if c = '“' ∨ c = '”' then '"' else if c = '‘' ∨ c = '’' then '\'' else c

theorem curl_straight (c d : Char) (h : Curl c d) : straight c = straight d := by
  rcases h with rfl | ⟨rfl, rfl | rfl⟩ | ⟨rfl, rfl | rfl⟩ <;> rfl

theorem straight_cases (c : Char) : straight c = c ∨ c ∈ ['“', '”', '‘', '’'] := by
  unfold straight
  split
  · next h => right; rcases h with rfl | rfl <;> decide
  · split
    · next h => right; rcases h with rfl | rfl <;> decide
    · exact .inl rfl

theorem straight_test {γ : Type} {f : Char → γ} (h : f '“' = f '"' ∧ f '”' = f '"' ∧ f '‘' = f '\'' ∧ f '’' = f '\'') (c : Char) : f (straight c) = f c := by
  rcases straight_cases c with e | e
  · rw [e]
  · simp only [List.mem_cons, List.not_mem_nil, or_false] at e
    rcases e with rfl | rfl | rfl | rfl
    · exact h.1.symm
    · exact h.2.1.symm
    · exact h.2.2.1.symm
    · exact h.2.2.2.symm

theorem straight_eq_iff {c d : Char} (hd : d ∉ ['"', '\'', '“', '”', '‘', '’']) : straight c = d ↔ c = d := by
  simp only [List.mem_cons, List.not_mem_nil, or_false, not_or] at hd
  unfold straight
  split
  · next h =>
    refine ⟨fun e => absurd e.symm hd.1, ?_⟩
    rintro rfl
    rcases h with e | e
    · exact absurd e hd.2.2.1
    · exact absurd e hd.2.2.2.1
  · split
    · next h =>
      refine ⟨fun e => absurd e.symm hd.2.1, ?_⟩
      rintro rfl
      rcases h with e | e
      · exact absurd e hd.2.2.2.2.1
      · exact absurd e hd.2.2.2.2.2
    · exact Iff.rfl

/-- Characters that are no quotation marks. -/
def notMark (c : Char) : Bool := !['"', '\'', '“', '”', '‘', '’'].contains c

theorem straight_iff {c d : Char} (hd : notMark d = true) : straight c = d ↔ c = d :=
  straight_eq_iff (by simpa [notMark] using hd)

theorem map_straight_key : ∀ {x : List Char}, (∀ c ∈ x, notMark c = true) → ∀ y : List Char, y.map straight = x → y = x
  | [], _, y, h => by simpa using h
  | c :: x, hx, y, h => by
    cases y with
    | nil => simp at h
    | cons d y =>
      simp only [List.map_cons, List.cons.injEq] at h
      rw [(straight_iff (hx c (by simp))).1 h.1, map_straight_key (fun e he => hx e (by simp [he])) y h.2]

theorem map_straight_self {x : List Char} (hx : ∀ c ∈ x, notMark c = true) : x.map straight = x := by
  induction x with
  | nil => rfl
  | cons c x ih =>
    rw [List.map_cons, ih (fun e he => hx e (by simp [he])), (straight_iff (hx c (by simp))).2 rfl]

theorem infix_straight {x : List Char} (hx : ∀ c ∈ x, notMark c = true) (t : List Char) : x <:+: t.map straight ↔ x <:+: t := by
  constructor
  · rintro ⟨a, b, e⟩
    obtain ⟨u, v, rfl, h1, h2⟩ := List.map_eq_append_iff.1 e.symm
    obtain ⟨u1, u2, rfl, h3, h4⟩ := List.map_eq_append_iff.1 h1
    rw [map_straight_key hx _ h4]
    exact ⟨u1, v, rfl⟩
  · rintro ⟨a, b, rfl⟩
    exact ⟨a.map straight, b.map straight, by simp [map_straight_self hx]⟩

theorem prefix_straight {x : List Char} (hx : ∀ c ∈ x, notMark c = true) (t : List Char) : x <+: t.map straight ↔ x <+: t := by
  constructor
  · rintro ⟨b, e⟩
    obtain ⟨u, v, rfl, h1, h2⟩ := List.map_eq_append_iff.1 e.symm
    rw [map_straight_key hx _ h1]
    exact ⟨v, rfl⟩
  · rintro ⟨b, rfl⟩
    exact ⟨b.map straight, by simp [map_straight_self hx]⟩

theorem curly_straight {s t : List Char} (h : Curly s t) : s.map straight = t.map straight := pairs_map curl_straight h

theorem curly_infix {x s t : List Char} (hx : ∀ c ∈ x, notMark c = true) (h : Curly s t) : x <:+: s ↔ x <:+: t := by
  rw [← infix_straight hx s, ← infix_straight hx t, curly_straight h]

theorem curly_head {s t : List Char} (h : Curly s t) : s.head?.map straight = t.head?.map straight := by
  rw [← List.head?_map, ← List.head?_map, curly_straight h]

theorem curly_last {s t : List Char} (h : Curly s t) : s.getLast?.map straight = t.getLast?.map straight := by
  rw [← List.getLast?_map, ← List.getLast?_map, curly_straight h]

theorem straight_any {p q : Option Char} (h : p.map straight = q.map straight) {f : Char → Bool}
    (hf : f '“' = f '"' ∧ f '”' = f '"' ∧ f '‘' = f '\'' ∧ f '’' = f '\'') : p.any f = q.any f := by
  have e : ∀ o : Option Char, o.any f = (o.map straight).any f := by
    intro o; cases o with
    | none => rfl
    | some c => exact (straight_test hf c).symm
  rw [e p, e q, h]

theorem straight_all {p q : Option Char} (h : p.map straight = q.map straight) {f : Char → Bool}
    (hf : f '“' = f '"' ∧ f '”' = f '"' ∧ f '‘' = f '\'' ∧ f '’' = f '\'') : p.all f = q.all f := by
  have e : ∀ o : Option Char, o.all f = (o.map straight).all f := by
    intro o; cases o with
    | none => rfl
    | some c => exact (straight_test hf c).symm
  rw [e p, e q, h]

theorem straight_some {p q : Option Char} (h : p.map straight = q.map straight) {d : Char} (hd : notMark d = true) : p = some d ↔ q = some d := by
  have e : ∀ o : Option Char, o = some d ↔ o.map straight = some d := by
    intro o; cases o with
    | none => simp
    | some c => simp [straight_iff hd]
  rw [e p, e q, h]

/-! ### Words and lines -/

theorem straight_startsBlock (w : List Char) : startsBlock (w.map straight) = startsBlock w := by
  cases w with
  | nil => rfl
  | cons c rest =>
    have hm : ∀ r : List Char, markerEnd (r.map straight) = markerEnd r := by
      intro r
      unfold markerEnd
      cases r with
      | nil => rfl
      | cons d r => simp [straight_test (f := blankChar) (by decide)]
    have hd : ∀ d : Char, notMark d = true → (decide (straight c = d)) = decide (c = d) := fun d h => by
      simp only [straight_iff h]
    have htake : ((c :: rest).map straight).takeWhile Char.isDigit = ((c :: rest).takeWhile Char.isDigit).map straight := by
      rw [List.takeWhile_map]
      congr 2
      funext x
      exact straight_test (f := Char.isDigit) (by decide) x
    have hpre : ∀ x : List Char, (∀ c ∈ x, notMark c = true) → x.isPrefixOf ((c :: rest).map straight) = x.isPrefixOf (c :: rest) := by
      intro x hx
      rw [Bool.eq_iff_iff, List.isPrefixOf_iff_prefix, List.isPrefixOf_iff_prefix, prefix_straight hx]
    have hrule : ∀ m : Char, notMark m = true → (((c :: rest).map straight).all fun d => d = m || blankChar d) = ((c :: rest).all fun d => d = m || blankChar d) ∧
        (((c :: rest).map straight).filter (· = m)).length = ((c :: rest).filter (· = m)).length := by
      intro m hm
      constructor
      · rw [List.all_map]
        congr 1
        funext x
        simp only [Function.comp, straight_iff hm, straight_test (f := blankChar) (by decide) x]
      · rw [List.filter_map, List.length_map]
        congr 2
        funext x
        simp only [Function.comp, straight_iff hm]
    have hhead : ∀ (x : List Char) (d : Char), notMark d = true → decide ((x.map straight).head? = some d) = decide (x.head? = some d) := by
      intro x d h
      rw [List.head?_map]
      cases x with
      | nil => rfl
      | cons e x => simp [straight_iff h]
    have hany : ([('*' : Char), '-', '_'].any fun m => (((c :: rest).map straight).all fun d => d = m || blankChar d) && 3 ≤ (((c :: rest).map straight).filter (· = m)).length) =
        ([('*' : Char), '-', '_'].any fun m => ((c :: rest).all fun d => d = m || blankChar d) && 3 ≤ ((c :: rest).filter (· = m)).length) := by
      simp only [List.any_cons, List.any_nil, hrule '*' (by decide), hrule '-' (by decide), hrule '_' (by decide)]
    have hdig : ((c :: rest).map straight).drop (((c :: rest).map straight).takeWhile Char.isDigit).length = ((c :: rest).drop ((c :: rest).takeWhile Char.isDigit).length).map straight := by
      rw [htake, List.length_map, List.map_drop]
    have hlen : (((c :: rest).map straight).takeWhile Char.isDigit).length = ((c :: rest).takeWhile Char.isDigit).length := by
      rw [htake, List.length_map]
    rw [hlen] at hdig
    rw [List.map_cons] at hdig hlen hany hpre ⊢
    unfold startsBlock
    simp only [straight_test (f := blankChar) (by decide) c, hd '>' (by decide), hd '<' (by decide), hd '[' (by decide), hd ':' (by decide), hd '|' (by decide),
      hd '-' (by decide), hd '+' (by decide), hd '*' (by decide), hm rest, hdig, hlen, hpre _ (show ∀ c ∈ ['`', '`', '`'], notMark c = true by decide),
      hpre _ (show ∀ c ∈ ['~', '~', '~'], notMark c = true by decide), hhead _ '.' (by decide), hhead _ ')' (by decide), ← List.map_drop, hm, hany]

theorem curly_startsBlock {s t : List Char} (h : Curly s t) : startsBlock s = startsBlock t := by
  rw [← straight_startsBlock s, ← straight_startsBlock t, curly_straight h]

theorem curly_char {f : Char → Bool} (hf : f '“' = true ∧ f '”' = true ∧ f '‘' = true ∧ f '’' = true) {s t : List Char} (h : Curly s t)
    (hs : ∀ c ∈ s, f c = true) : ∀ c ∈ t, f c = true := by
  intro d hd
  obtain ⟨c, hc, h'⟩ := pairs_right h d hd
  rcases h' with rfl | ⟨rfl, rfl | rfl⟩ | ⟨rfl, rfl | rfl⟩
  · exact hs _ hc
  · exact hf.1
  · exact hf.2.1
  · exact hf.2.2.1
  · exact hf.2.2.2

theorem curly_word {s t : List Char} (h : Curly s t) (hs : CoreWord s) : CoreWord t := by
  obtain ⟨h1, ⟨c, hc, hl⟩, h3, h4, h5, h6, h7⟩ := hs
  refine ⟨curly_char (by decide) h h1, ?_, ?_, fun e => h4 ((curly_infix (by decide) h).2 e), fun e => h5 ((curly_infix (by decide) h).2 e),
    fun e => h6 ((straight_some (curly_head h) (by decide)).2 e), fun e => h7 ((straight_some (curly_last h) (by decide)).2 e)⟩
  · obtain ⟨d, hd, h'⟩ := pairs_left h c hc
    rcases h' with rfl | ⟨rfl, _⟩ | ⟨rfl, _⟩
    · exact ⟨_, hd, hl⟩
    · exact absurd hl (by decide)
    · exact absurd hl (by decide)
  · rw [← curly_startsBlock h, ← straight_some (curly_head h) (by decide)]
    exact h3

theorem curly_splitOn {d : Char} (hd : notMark d = true) : ∀ {s t : List Char}, Curly s t → Pairs Curly (splitOn d s) (splitOn d t)
  | [], [], _ => ⟨trivial, trivial⟩
  | a :: s, b :: t, h => by
    have ih := curly_splitOn hd h.2
    have e : a = d ↔ b = d := by
      rw [← straight_iff hd (c := a), ← straight_iff hd (c := b), curl_straight _ _ h.1]
    rw [splitOn, splitOn]
    by_cases hb : b = d
    · rw [if_pos (e.2 hb), if_pos hb]
      exact ⟨trivial, ih⟩
    · rw [if_neg (fun h => hb (e.1 h)), if_neg hb]
      cases hx : splitOn d s with
      | nil => exact absurd hx (splitOn_ne_nil _ _)
      | cons x xs =>
        cases hy : splitOn d t with
        | nil => exact absurd hy (splitOn_ne_nil _ _)
        | cons y ys =>
          rw [hx, hy] at ih
          exact ⟨⟨h.1, ih.1⟩, ih.2⟩

theorem curly_line {s t : List Char} (h : Curly s t) (hs : TextLine s) : TextLine t := by
  intro w hw
  obtain ⟨v, hv, h'⟩ := pairs_right (curly_splitOn (by decide) h) w hw
  exact curly_word h' (hs v hv)

theorem curly_join {x : List Char} : ∀ {ls ms : List (List Char)}, Pairs Curly ls ms → Curly (joinWith x ls) (joinWith x ms)
  | [], [], _ => trivial
  | [_], [_], h => h.1
  | l :: l' :: ls, m :: m' :: ms, h => by
    rw [joinWith_cons x l (by simp), joinWith_cons x m (by simp)]
    exact pairs_append (pairs_append h.1 (curly_refl x)) (curly_join (ls := l' :: ls) (ms := m' :: ms) h.2)
  | [_], _ :: _ :: _, h => absurd h.2 id
  | _ :: _ :: _, [_], h => absurd h.2 id

theorem curly_inWords : ∀ {s t : List Char} {p q : Option Char}, Curly s t → p.any Char.isAlpha = q.any Char.isAlpha → inWords p s = true → inWords q t = true
  | [], [], _, _, _, _, _ => rfl
  | a :: s, b :: t, p, q, h, hp, hs => by
    rw [inWords, Bool.and_eq_true] at hs ⊢
    refine ⟨?_, curly_inWords h.2 ?_ hs.2⟩
    · have hn : s.head?.any Char.isAlpha = t.head?.any Char.isAlpha := straight_any (curly_head h.2) (by decide)
      rw [← hp, ← hn]
      rcases h.1 with rfl | ⟨rfl, rfl | rfl⟩ | ⟨rfl, rfl | rfl⟩
      · exact hs.1
      all_goals simp
    · rw [Option.any_some, Option.any_some]
      rcases h.1 with rfl | ⟨rfl, rfl | rfl⟩ | ⟨rfl, rfl | rfl⟩ <;> rfl

end Hongdown.Model
