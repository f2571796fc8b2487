import Verif.Lemmas.Quotes
import Verif.Lemmas.PunctPipeline
import Verif.Spec.Quotation

/-!
# Quotation marks of texts that are divided
-/

namespace Hongdown.Model
open Spec

/-- Quotation marks that only look at their neighbours. -/
def localQuotes : List Char → List Char → List Char
  | _, [] => []
  | pre, c :: cs => (if c = '"' then (if QuoteMayOpen pre then '“' else '”') else c) :: localQuotes (pre ++ [c]) cs

theorem ctxMap_local : ∀ (s pre : List Char) (e : Bool),
    (∀ a b, s = a ++ '"' :: b → (QuoteMayOpen (pre ++ a) ↔ ¬ QuoteMayClose b)) →
    ctxMap doubleStep e pre.getLast? s = localQuotes pre s
  | [], _, _, _ => rfl
  | c :: cs, pre, e, h => by
    have ih : ∀ e', ctxMap doubleStep e' (some c) cs = localQuotes (pre ++ [c]) cs := by
      intro e'
      have := ctxMap_local cs (pre ++ [c]) e' (fun a b hs => by simpa using h (c :: a) b (by rw [hs]; rfl))
      simpa using this
    rw [ctxMap, localQuotes, ih]
    congr 1
    by_cases hc : c = '"'
    · subst hc
      have h0 := h [] cs rfl
      rw [List.append_nil] at h0
      rw [if_pos rfl, doubleStep, if_pos rfl, shouldBeOpening_spec]
      by_cases k : QuoteMayOpen pre
      · simp [k, h0.1 k, ldq]
      · have k2 : QuoteMayClose cs := by
          by_cases k2 : QuoteMayClose cs
          · exact k2
          · exact absurd (h0.2 k2) k
        simp [k, k2, rdq]
    · rw [if_neg hc, doubleStep, if_neg hc]

theorem transform_local {s : List Char} (h : ClearQuotes s) : transformDoubleQuotes s = localQuotes [] s :=
  ctxMap_local s [] true (fun a b hs => by simpa using h a b hs)

theorem localQuotes_append : ∀ (x pre y : List Char), localQuotes pre (x ++ y) = localQuotes pre x ++ localQuotes (pre ++ x) y
  | [], pre, y => by simp [localQuotes]
  | c :: x, pre, y => by rw [List.cons_append, localQuotes, localQuotes, localQuotes_append x]; simp

/-- Only the last character before matters. -/
theorem localQuotes_last {pre pre' : List Char} : ∀ {y : List Char}, (QuoteMayOpen pre ↔ QuoteMayOpen pre') ∨ y.head? ≠ some '"' →
    localQuotes pre y = localQuotes pre' y
  | [], _ => rfl
  | c :: cs, h => by
    rw [localQuotes, localQuotes]
    have hl : QuoteMayOpen (pre ++ [c]) ↔ QuoteMayOpen (pre' ++ [c]) := by simp [QuoteMayOpen]
    rw [localQuotes_last (.inl hl)]
    congr 1
    by_cases hc : c = '"'
    · rcases h with h | h
      · simp only [h]
      · exact absurd (by rw [hc]; rfl) h
    · rw [if_neg hc, if_neg hc]

theorem append_quote {x y a b : List Char} (h : x ++ y = a ++ '"' :: b) :
    (∃ b', x = a ++ '"' :: b' ∧ b = b' ++ y) ∨ (∃ a', a = x ++ a' ∧ y = a' ++ '"' :: b) := by
  rcases List.append_eq_append_iff.1 h with ⟨a', h1, h2⟩ | ⟨b', h1, h2⟩
  · exact .inr ⟨a', h1, h2⟩
  · cases b' with
    | nil => exact .inr ⟨[], by simpa using h1.symm, by simpa using h2.symm⟩
    | cons c b' =>
      simp only [List.cons_append, List.cons.injEq] at h2
      exact .inl ⟨b', by rw [h1, ← h2.1], h2.2⟩

theorem mayClose_append {b y : List Char} (h : b ≠ [] ∨ QuoteMayClose y) : QuoteMayClose (b ++ y) ↔ QuoteMayClose b := by
  cases b with
  | nil => simpa [QuoteMayClose] using h
  | cons c b => simp [QuoteMayClose]

theorem mayOpen_append {x a : List Char} (h : a ≠ [] ∨ QuoteMayOpen x) : QuoteMayOpen (x ++ a) ↔ QuoteMayOpen a := by
  rcases List.eq_nil_or_concat a with rfl | ⟨a, c, rfl⟩
  · simpa [QuoteMayOpen] using h
  · simp [QuoteMayOpen]

theorem mayOpen_blank (x : List Char) : QuoteMayOpen (x ++ [' ']) := by simp [QuoteMayOpen, isWs]

theorem mayClose_blank (y : List Char) : QuoteMayClose (' ' :: y) := by simp [QuoteMayClose, isWs]

theorem clear_append {x y : List Char} (hx : ClearQuotes x) (hy : ClearQuotes y)
    (h1 : x.getLast? ≠ some '"' ∨ QuoteMayClose y) (h2 : y.head? ≠ some '"' ∨ QuoteMayOpen x) : ClearQuotes (x ++ y) := by
  intro a b h
  rcases append_quote h with ⟨b', rfl, rfl⟩ | ⟨a', rfl, rfl⟩
  · rw [mayClose_append]
    · exact hx a b' rfl
    · rcases h1 with h1 | h1
      · left; rintro rfl; simp at h1
      · exact .inr h1
  · rw [mayOpen_append]
    · exact hy a' b rfl
    · rcases h2 with h2 | h2
      · left; rintro rfl; simp at h2
      · exact .inr h2

theorem clear_blank {y : List Char} (hy : ClearQuotes y) : ClearQuotes (' ' :: y) := by
  have : ClearQuotes [' '] := by
    intro a b h
    cases a with
    | nil => simp at h
    | cons c a => simp at h
  exact clear_append (x := [' ']) this hy (.inl (by decide)) (.inr (mayOpen_blank []))

theorem double_lines {x y : List Char} (hx : ClearQuotes x) (hy : ClearQuotes y) :
    transformDoubleQuotes (x ++ ' ' :: y) = transformDoubleQuotes x ++ ' ' :: transformDoubleQuotes y := by
  rw [transform_local (clear_append hx (clear_blank hy) (.inr (mayClose_blank y)) (.inl (by simp))), transform_local hx, transform_local hy,
    localQuotes_append, localQuotes, if_neg (by decide)]
  congr 2
  refine localQuotes_last (.inl ?_)
  rw [List.nil_append]
  exact ⟨fun _ => by simp [QuoteMayOpen], fun _ => mayOpen_blank x⟩

theorem flatten_head : ∀ {ps : List (List Char)}, (∀ p ∈ ps, p.head? ≠ some '"') → ps.flatten.head? ≠ some '"'
  | [], _ => by simp
  | p :: ps, h => by
    cases p with
    | nil => exact flatten_head (ps := ps) fun p hp => h p (by simp [hp])
    | cons c p => simpa using h (c :: p) (by simp)

theorem double_pieces : ∀ {ps : List (List Char)}, (∀ p ∈ ps, ClearQuotes p ∧ p.head? ≠ some '"' ∧ p.getLast? ≠ some '"') →
    ClearQuotes ps.flatten ∧ transformDoubleQuotes ps.flatten = (ps.map transformDoubleQuotes).flatten
  | [], _ => ⟨by intro a b h; cases a <;> simp at h, rfl⟩
  | p :: ps, h => by
    obtain ⟨h1, h2⟩ := double_pieces (ps := ps) fun q hq => h q (by simp [hq])
    obtain ⟨hp, ha, hb⟩ := h p (by simp)
    have hh := flatten_head (ps := ps) fun q hq => (h q (by simp [hq])).2.1
    rw [List.flatten_cons, List.map_cons, List.flatten_cons, ← h2]
    have hc := clear_append hp h1 (.inl hb) (.inl hh)
    refine ⟨hc, ?_⟩
    rw [transform_local hc, transform_local hp, transform_local h1, localQuotes_append]
    congr 1
    exact localQuotes_last (.inr hh)

/-! ### A quotation mark at the start of a text -/

theorem dashes_head {pat : List Char} (rep : Char) (h : '"' ∉ pat) (s : List Char) :
    ∃ s', transformDashes pat rep ('"' :: s) = '"' :: s' := by
  rw [transformDashes]
  split
  · exact ⟨s, rfl⟩
  · have hp : pat.isPrefixOf ('"' :: s) = false := by
      cases pat with
      | nil => contradiction
      | cons c pat =>
        have : c ≠ '"' := by rintro rfl; simp at h
        simp [List.isPrefixOf, this]
    rw [dashGo, if_neg (by simp [hp])]
    exact ⟨_, rfl⟩

theorem ellipsis_head (s : List Char) : ∃ s', transformEllipsis ('"' :: s) = '"' :: s' := by
  rw [transformEllipsis]
  · exact ⟨_, rfl⟩
  all_goals simp

theorem punctuation_head {u : Uni} {o : PunctOpts} (hd : o.curlyDouble = true)
    (hp : ∀ p, o.emDash = some p ∨ o.enDash = some p → '"' ∉ p) (s : List Char) :
    ∃ s', transformPunctuation u o ('"' :: s) = '“' :: s' := by
  have h1 : ∃ s1, stDash o.emDash emDashC ('"' :: s) = '"' :: s1 := by
    cases he : o.emDash with
    | none => exact ⟨s, rfl⟩
    | some p => exact dashes_head _ (hp p (.inl he)) s
  obtain ⟨s1, e1⟩ := h1
  have h2 : ∃ s2, stDash o.enDash enDashC ('"' :: s1) = '"' :: s2 := by
    cases he : o.enDash with
    | none => exact ⟨s1, rfl⟩
    | some p => exact dashes_head _ (hp p (.inr he)) s1
  obtain ⟨s2, e2⟩ := h2
  have h3 : ∃ s3, stEll o.ellipsis ('"' :: s2) = '"' :: s3 := by
    unfold stEll
    split
    · exact ellipsis_head s2
    · exact ⟨s2, rfl⟩
  obtain ⟨s3, e3⟩ := h3
  have h4 : ∃ s4, transformDoubleQuotes ('"' :: s3) = '“' :: s4 := by
    have : shouldBeOpening none s3.head? true = true := by
      have := shouldBeOpening_spec [] s3 true
      rw [List.getLast?_nil] at this
      rw [this]
      have k : QuoteMayOpen [] := by simp [QuoteMayOpen]
      simp [k]
    refine ⟨ctxMap doubleStep false (some '"') s3, ?_⟩
    simp [transformDoubleQuotes, ctxMap, doubleStep, this, ldq]
  obtain ⟨s4, e4⟩ := h4
  have h5 : ∃ s5, stSgl u o.curlySingle ('“' :: s4) = '“' :: s5 := by
    unfold stSgl
    split
    · exact ⟨ctxMap (singleStep u) true (some '“') s4, by simp [transformSingleQuotes, ctxMap, singleStep]⟩
    · exact ⟨s4, rfl⟩
  obtain ⟨s5, e5⟩ := h5
  have h6 : ∃ s6, stApo u o.curlyApostrophes ('“' :: s5) = '“' :: s6 := by
    unfold stApo
    split
    · exact ⟨ctxMap (apostropheStep u) 0 (some '“') s5, by simp [transformApostrophes, ctxMap, apostropheStep]⟩
    · exact ⟨s5, rfl⟩
  obtain ⟨s6, e6⟩ := h6
  refine ⟨s6, ?_⟩
  have e4' : stDbl o.curlyDouble ('"' :: s3) = '“' :: s4 := by rw [stDbl, hd, if_pos rfl, e4]
  rw [transformPunctuation_eq, e1, e2, e3, e4', e5, e6]

end Hongdown.Model
