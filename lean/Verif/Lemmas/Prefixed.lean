import Verif.Spec.Quote
import Verif.Lemmas.WrapText
import Verif.Lemmas.Code

/-!
# Lines with a prefix
-/

namespace Hongdown
open Model Spec

theorem prefixed_nil (m : List Char) : Prefixed m [] := ⟨[], rfl, by simp⟩

theorem Spec.Prefixed.append {m a b : List Char} (ha : Prefixed m a) (hb : Prefixed m b) : Prefixed m (a ++ b) := by
  obtain ⟨x, rfl, hx⟩ := ha
  obtain ⟨y, rfl, hy⟩ := hb
  refine ⟨x ++ y, by simp [unlines], ?_⟩
  intro l hl
  rcases List.mem_append.1 hl with h | h
  · exact hx l h
  · exact hy l h

theorem prefixed_line {m l : List Char} (hn : '\n' ∉ l) (hm : m <+: l) : Prefixed m (l ++ ['\n']) :=
  ⟨[l], by simp [unlines], by simpa using ⟨hn, hm⟩⟩

theorem prefixed_flatMap {α} {m : List Char} {f : α → List Char} {l : List α}
    (h : ∀ x ∈ l, Prefixed m (f x)) : Prefixed m (l.flatMap f) := by
  induction l with
  | nil => exact prefixed_nil m
  | cons x l ih =>
    rw [List.flatMap_cons]
    exact (h x (by simp)).append (ih fun y hy => h y (by simp [hy]))

theorem Spec.Prefixed.mono {m n a : List Char} (h : Prefixed m a) (hn : n <+: m) : Prefixed n a := by
  obtain ⟨ls, rfl, hl⟩ := h
  exact ⟨ls, rfl, fun l h => ⟨(hl l h).1, hn.trans (hl l h).2⟩⟩

/-- The first line starts with `f`, the others with `m`. -/
def FL (f m s : List Char) : Prop :=
  ∃ l ls, splitOn '\n' s = l :: ls ∧ f <+: l ∧ ∀ x ∈ ls, m <+: x

theorem FL.prefixed {m s : List Char} (h : FL m m s) : Prefixed m (s ++ ['\n']) := by
  obtain ⟨l, ls, e, hl, hls⟩ := h
  refine ⟨l :: ls, ?_, ?_⟩
  · have : ∀ (x : List Char) (xs : List (List Char)), joinWith ['\n'] (x :: xs) ++ ['\n'] = unlines (x :: xs) := by
      intro x xs
      induction xs generalizing x with
      | nil => simp [joinWith, unlines]
      | cons y ys ih => rw [joinWith_cons _ _ (by simp), List.append_assoc, ih y]; simp [unlines]
    rw [← this, ← e, join_splitOn]
  · intro x hx
    refine ⟨splitOn_not_mem '\n' s x (e ▸ hx), ?_⟩
    rcases List.mem_cons.1 hx with rfl | hx
    · exact hl
    · exact hls x hx

theorem fl_line {f m s : List Char} (hn : '\n' ∉ s) (h : f <+: s) : FL f m s :=
  ⟨s, [], splitOn_of_not_mem hn, h, by simp⟩

theorem FL.nl {f m a b : List Char} (ha : FL f m a) (hb : FL m m b) : FL f m (a ++ '\n' :: b) := by
  obtain ⟨l, ls, e, hl, hls⟩ := ha
  obtain ⟨k, ks, e', hk, hks⟩ := hb
  refine ⟨l, ls ++ k :: ks, by rw [splitOn_append_cons, e, e']; rfl, hl, ?_⟩
  intro x hx
  simp only [List.mem_append, List.mem_cons] at hx
  rcases hx with hx | rfl | hx
  · exact hls x hx
  · exact hk
  · exact hks x hx

theorem FL.right {f m a t : List Char} (ha : FL f m a) (ht : '\n' ∉ t) : FL f m (a ++ t) := by
  obtain ⟨l, ls, e, hl, hls⟩ := ha
  obtain ⟨i, x, h1, h2⟩ := splitOn_append_right ht a
  cases i with
  | nil =>
    rw [e] at h1
    cases h1
    exact ⟨l ++ t, [], h2, hl.trans (List.prefix_append _ _), by simp⟩
  | cons y ys =>
    rw [e] at h1
    cases h1
    refine ⟨l, ys ++ [x ++ t], h2, hl, ?_⟩
    intro z hz
    rcases List.mem_append.1 hz with h | h
    · exact hls z (by simp [h])
    · simp only [List.mem_singleton] at h
      subst h
      exact (hls x (by simp)).trans (List.prefix_append _ _)

theorem FL.left {f g m a t : List Char} (ha : FL f m a) (ht : '\n' ∉ t) (hg : g <+: t) : FL g m (t ++ a) := by
  obtain ⟨l, ls, e, hl, hls⟩ := ha
  refine ⟨t ++ l, ls, ?_, hg.trans (List.prefix_append _ _), hls⟩
  clear hg
  induction t with
  | nil => exact e
  | cons c t ih =>
    simp only [List.mem_cons, not_or] at ht
    rw [List.cons_append, splitOn, if_neg (Ne.symm ht.1), ih ht.2]
    rfl

theorem FL.weaken {f g m a : List Char} (ha : FL f m a) (h : g <+: f) : FL g m a := by
  obtain ⟨l, ls, e, hl, hls⟩ := ha
  exact ⟨l, ls, e, h.trans hl, hls⟩

theorem trimEnd_mono (a b : List Char) : trimEnd a <+: trimEnd (a ++ b) := by
  by_cases hb : trimEnd b = []
  · rw [trimEnd_append_ws (trimEnd_eq_nil_iff.1 hb)]; exact List.prefix_rfl
  · rw [trimEnd_append_right hb]
    exact (trimEnd_prefix a).trans (List.prefix_append _ _)

theorem wrapSingle_fl (w : List Char → Nat) {text fp pfx f m : List Char} (lw : Nat) (hf : '\n' ∉ fp)
    (hp : '\n' ∉ pfx) (ht : '\n' ∉ text) (h1 : f <+: trimEnd fp) (h2 : m <+: trimEnd pfx) :
    FL f m (wrapSingle w text fp pfx lw) := by
  have e := wrapSingle_lines w lw hf hp ht
  cases hg : (groups w fp pfx lw (tokenize text)) with
  | nil => exact absurd hg (groups_ne_nil _ _ _ _ _)
  | cons g gs =>
    rw [hg] at e
    refine ⟨_, _, e, ?_, ?_⟩
    · exact h1.trans (trimEnd_mono ..)
    · intro x hx
      simp only [List.mem_map] at hx
      obtain ⟨_, ⟨_, ⟨b, _, rfl⟩, rfl⟩, rfl⟩ := hx
      exact h2.trans (trimEnd_mono ..)

theorem wrapLines_fl (w : List Char → Nat) {pfx f m : List Char} (lw : Nat) (hp : '\n' ∉ pfx)
    (h2 : m <+: trimEnd pfx) : ∀ (ls : List (List Char)) (result cur : List Char),
    (∀ l ∈ ls, '\n' ∉ l) → '\n' ∉ cur →
    (result = [] ∧ f <+: trimEnd cur) ∨ (FL f m result ∧ result ≠ [] ∧ cur = pfx) →
    (ls = [] → result = [] → f = []) →
    FL f m (wrapLines w pfx lw result cur ls)
  | [], result, cur, _, _, hr, he => by
    rw [wrapLines]
    rcases hr with ⟨rfl, _⟩ | ⟨h, _, _⟩
    · rw [he rfl rfl]; exact fl_line (by simp) (by simp)
    · exact h
  | l :: ls, result, cur, hl, hc, hr, he => by
    rw [wrapLines]
    have hnl : '\n' ∉ trim l := fun h => hl l (by simp) (trim_subset h)
    have hm : m <+: pfx := h2.trans (trimEnd_prefix _)
    split
    · apply wrapLines_fl w lw hp h2 ls _ _ (fun x hx => hl x (by simp [hx])) hp
      · rcases hr with ⟨rfl, hf⟩ | ⟨h, hne, rfl⟩
        · simp only [if_true, List.nil_append]
          by_cases hz : cur ++ trim l = []
          · left
            refine ⟨hz, ?_⟩
            rw [(List.append_eq_nil_iff.1 hz).1] at hf
            have : f = [] := by simpa [trimEnd] using hf
            subst this; simp
          · right
            refine ⟨fl_line (by simp [hc, hnl]) ?_, hz, trivial⟩
            exact (hf.trans (trimEnd_prefix _)).trans (List.prefix_append _ _)
        · right
          rw [if_neg hne]
          refine ⟨?_, by simp, rfl⟩
          have := h.nl (b := cur ++ trim l) (fl_line (by simp [hc, hnl]) (hm.trans (List.prefix_append _ _)))
          simpa using this
      · intro _ hz
        rcases hr with ⟨rfl, hf⟩ | ⟨h, hne, rfl⟩
        · simp only [if_true, List.nil_append] at hz
          rw [(List.append_eq_nil_iff.1 hz).1] at hf
          simpa [trimEnd] using hf
        · simp [hne] at hz
    · have hmerge : '\n' ∉ mergeLines (trim l) ls :=
        mergeLines_no_nl hnl (fun x hx => hl x (by simp [hx]))
      rcases hr with ⟨rfl, hf⟩ | ⟨h, hne, rfl⟩
      · simpa using wrapSingle_fl w lw hc hp hmerge hf h2
      · rw [if_neg hne]
        have := h.nl (wrapSingle_fl w lw hc hp hmerge h2 h2)
        simpa using this

theorem wrapSegment_fl (w : List Char → Nat) {text fp pfx f m : List Char} (lw : Nat) (hf : '\n' ∉ fp)
    (hp : '\n' ∉ pfx) (ht : '\n' ∉ text) (h1 : f <+: trimEnd fp) (h2 : m <+: trimEnd pfx) :
    FL f m (wrapSegment w text fp pfx lw) := by
  rw [wrapSegment]
  split
  · exact wrapSingle_fl w lw hf hp ht h1 h2
  · exact wrapLines_fl w lw hp h2 _ _ _ (fun l hl hn => ht (mem_splitOn_subset hl hn)) hf (.inl ⟨rfl, h1⟩)
      (fun h => absurd h (splitOn_ne_nil _ _))

theorem wrapText_fl (w : List Char → Nat) {text pfx m : List Char} (lw : Nat)
    (hp : '\n' ∉ pfx) (h2 : m <+: trimEnd pfx) : FL m m (wrapText w text pfx lw) := by
  rw [wrapText_eq]
  have : ∀ segs : List (List Char), segs ≠ [] → (∀ s ∈ segs, '\n' ∉ s) →
      FL m m (joinWith [' ', ' ', '\n'] (segs.map fun s => wrapSegment w s pfx pfx lw)) := by
    intro segs
    induction segs with
    | nil => intro h; exact absurd rfl h
    | cons s segs ih =>
      intro _ hs
      have h := wrapSegment_fl (f := m) w lw hp hp (hs s (by simp)) h2 h2
      cases segs with
      | nil => exact h
      | cons t segs =>
        have := ih (by simp) (fun x hx => hs x (by simp [hx]))
        rw [List.map_cons, joinWith_cons _ _ (by simp)]
        simpa using (h.right (t := [' ', ' ']) (by decide)).nl this
  exact this _ (splitOn_ne_nil _ _) (splitOn_not_mem _ _)

theorem wrapTextFirstLine_fl (w : List Char → Nat) {text fp pfx f m : List Char} (lw : Nat) (hf : '\n' ∉ fp)
    (hp : '\n' ∉ pfx) (h1 : f <+: trimEnd fp) (h2 : m <+: trimEnd pfx) :
    FL f m (wrapTextFirstLine w text fp pfx lw) := by
  have hall := splitOn_not_mem '\n' text
  have hj := join_splitOn '\n' text
  rw [wrapTextFirstLine]
  split
  · next h => exact absurd h (splitOn_ne_nil _ _)
  · next x h =>
    rw [h] at hall hj
    have : '\n' ∉ text := by rw [← hj]; exact hall x (by simp)
    exact wrapSegment_fl w lw hf hp this h1 h2
  · next s rest _ h =>
    rw [h] at hall
    have key : ∀ (rest : List (List Char)) (a : List Char), (∀ s ∈ rest, '\n' ∉ s) → FL f m a →
        FL f m (a ++ rest.flatMap fun s => [' ', ' ', '\n'] ++ pfx ++ wrapSegment w s [] pfx lw) := by
      intro rest
      induction rest with
      | nil => intro a _ h; simpa using h
      | cons s rest ih =>
        intro a hs ha
        have hseg := wrapSegment_fl (f := []) w (text := s) (fp := []) lw (by simp) hp (hs s (by simp)) (by simp) h2
        have := ih (a ++ [' ', ' '] ++ '\n' :: (pfx ++ wrapSegment w s [] pfx lw)) (fun x hx => hs x (by simp [hx]))
          ((ha.right (t := [' ', ' ']) (by decide)).nl (hseg.left hp (h2.trans (trimEnd_prefix _))))
        simpa using this
    exact key rest _ (fun x hx => hall x (by simp [hx]))
      (wrapSegment_fl w lw hf hp (hall s (by simp)) h1 h2)

end Hongdown
