import Verif.Lemmas.Prefixed

/-!
# Texts whose lines after the first are indented
-/

namespace Hongdown
open Model Spec

/-- The line is blank or indented by `n` spaces. -/
def Ind (n : Nat) (l : List Char) : Prop := (∀ c ∈ l, c = ' ') ∨ spaces n <+: l

/-- The lines after the first are. -/
def FI (n : Nat) (s : List Char) : Prop := ∃ l ls, splitOn '\n' s = l :: ls ∧ ∀ x ∈ ls, Ind n x

/-- All lines are. -/
def AI (n : Nat) (s : List Char) : Prop := ∀ x ∈ splitOn '\n' s, Ind n x

variable {n : Nat}

theorem ind_nil : Ind n [] := .inl (by simp)

theorem AI.fi {s : List Char} (h : AI n s) : FI n s := by
  cases e : splitOn '\n' s with
  | nil => exact absurd e (splitOn_ne_nil _ _)
  | cons l ls => exact ⟨l, ls, e, fun x hx => h x (by rw [e]; simp [hx])⟩

theorem fi_line {s : List Char} (hn : '\n' ∉ s) : FI n s := ⟨s, [], splitOn_of_not_mem hn, by simp⟩

theorem ai_line {s : List Char} (hn : '\n' ∉ s) (h : Ind n s) : AI n s := by
  intro x hx
  rw [splitOn_of_not_mem hn] at hx
  rw [List.mem_singleton.mp hx]; exact h

theorem FI.nl {a b : List Char} (ha : FI n a) (hb : AI n b) : FI n (a ++ '\n' :: b) := by
  obtain ⟨l, ls, e, hls⟩ := ha
  refine ⟨l, ls ++ splitOn '\n' b, by rw [splitOn_append_cons, e]; rfl, ?_⟩
  intro x hx
  rcases List.mem_append.mp hx with h | h
  · exact hls x h
  · exact hb x h

theorem AI.nl {a b : List Char} (ha : AI n a) (hb : AI n b) : AI n (a ++ '\n' :: b) := by
  intro x hx
  rw [splitOn_append_cons] at hx
  rcases List.mem_append.mp hx with h | h
  · exact ha x h
  · exact hb x h

theorem AI.blank {b : List Char} (hb : AI n b) : AI n ('\n' :: b) :=
  AI.nl (a := []) (ai_line (by simp) ind_nil) hb

theorem splitOn_left {t : List Char} (ht : '\n' ∉ t) {a l : List Char} {ls : List (List Char)}
    (e : splitOn '\n' a = l :: ls) : splitOn '\n' (t ++ a) = (t ++ l) :: ls := by
  induction t with
  | nil => exact e
  | cons c t ih =>
    have h1 : c ≠ '\n' := fun h => ht (by simp [h])
    have ih := ih fun h => ht (by simp [h])
    obtain ⟨p, ps, e1, e2⟩ := splitOn_cons_of_ne h1 (t ++ a)
    rw [ih] at e1
    obtain ⟨rfl, rfl⟩ := List.cons.inj e1
    exact e2

theorem FI.left {a t : List Char} (ha : FI n a) (ht : '\n' ∉ t) : FI n (t ++ a) := by
  obtain ⟨l, ls, e, hls⟩ := ha
  exact ⟨t ++ l, ls, splitOn_left ht e, hls⟩

theorem FI.indent {a t : List Char} (ha : FI n a) (ht : '\n' ∉ t) (h : spaces n <+: t) : AI n (t ++ a) := by
  obtain ⟨l, ls, e, hls⟩ := ha
  intro x hx
  rw [splitOn_left ht e] at hx
  rcases List.mem_cons.mp hx with rfl | hx
  · exact .inr (h.trans (List.prefix_append _ _))
  · exact hls x hx

theorem FI.right {a : List Char} (ha : FI n a) (k : Nat) : FI n (a ++ spaces k) := by
  have ht : '\n' ∉ spaces k := fun h => absurd (List.eq_of_mem_replicate h) (by decide)
  obtain ⟨l, ls, e, hls⟩ := ha
  obtain ⟨i, x, h1, h2⟩ := splitOn_append_right ht a
  cases i with
  | nil =>
    refine ⟨_, _, h2, by simp⟩
  | cons y i =>
    rw [e, List.cons_append] at h1
    obtain ⟨rfl, h3⟩ := List.cons.inj h1
    refine ⟨_, _, h2, ?_⟩
    intro z hz
    rcases List.mem_append.mp hz with hz | hz
    · exact hls z (by rw [h3]; simp [hz])
    · rw [List.mem_singleton.mp hz]
      rcases hls x (by rw [h3]; simp) with h | h
      · refine .inl fun c hc => ?_
        rcases List.mem_append.mp hc with hc | hc
        · exact h c hc
        · exact List.eq_of_mem_replicate hc
      · exact .inr (h.trans (List.prefix_append _ _))

theorem ind_trimEnd {m : Nat} (hm : n ≤ m) (b : List Char) : Ind n (trimEnd (spaces m ++ b)) := by
  by_cases hb : trimEnd b = []
  · left
    rw [trimEnd_append_ws (trimEnd_eq_nil_iff.1 hb)]
    intro c hc
    exact List.eq_of_mem_replicate ((trimEnd_prefix _).subset hc)
  · right
    rw [trimEnd_append_right hb]
    refine List.IsPrefix.trans ?_ (List.prefix_append _ _)
    exact ⟨spaces (m - n), by rw [spaces, spaces, spaces, List.replicate_append_replicate]; congr 1; omega⟩

theorem spaces_no_nl (k : Nat) : '\n' ∉ spaces k :=
  fun h => absurd (List.eq_of_mem_replicate h) (by decide)

theorem spaces_prefix {m : Nat} (hm : n ≤ m) : spaces n <+: spaces m :=
  ⟨spaces (m - n), by rw [spaces, spaces, spaces, List.replicate_append_replicate]; congr 1; omega⟩

theorem wrapSingle_fi (w : List Char → Nat) {text fp : List Char} {m : Nat} (lw : Nat) (hf : '\n' ∉ fp)
    (ht : '\n' ∉ text) (hm : n ≤ m) : FI n (wrapSingle w text fp (spaces m) lw) := by
  have e := wrapSingle_lines w lw hf (spaces_no_nl m) ht
  cases hg : (groups w fp (spaces m) lw (tokenize text)) with
  | nil => exact absurd hg (groups_ne_nil _ _ _ _ _)
  | cons g gs =>
    rw [hg] at e
    refine ⟨_, _, e, ?_⟩
    intro x hx
    simp only [List.mem_map] at hx
    obtain ⟨_, ⟨_, ⟨b, _, rfl⟩, rfl⟩, rfl⟩ := hx
    exact ind_trimEnd hm _

theorem wrapSingle_ai (w : List Char → Nat) {text : List Char} {m : Nat} (lw : Nat)
    (ht : '\n' ∉ text) (hm : n ≤ m) : AI n (wrapSingle w text (spaces m) (spaces m) lw) := by
  have e := wrapSingle_lines w lw (spaces_no_nl m) (spaces_no_nl m) ht
  cases hg : (groups w (spaces m) (spaces m) lw (tokenize text)) with
  | nil => exact absurd hg (groups_ne_nil _ _ _ _ _)
  | cons g gs =>
    rw [hg] at e
    intro x hx
    rw [e] at hx
    simp only [layout, List.map_cons, List.mem_cons, List.mem_map] at hx
    rcases hx with rfl | ⟨_, ⟨_, ⟨b, _, rfl⟩, rfl⟩, rfl⟩ <;> exact ind_trimEnd hm _

theorem wrapLines_fi (w : List Char → Nat) {m : Nat} (lw : Nat) (hm : n ≤ m) :
    ∀ (ls : List (List Char)) (result cur : List Char), (∀ l ∈ ls, '\n' ∉ l) → '\n' ∉ cur →
    result = [] ∨ (FI n result ∧ result ≠ [] ∧ cur = spaces m) →
    FI n (wrapLines w (spaces m) lw result cur ls)
  | [], result, cur, _, _, hr => by
    rw [wrapLines]
    rcases hr with rfl | ⟨h, _, _⟩
    · exact fi_line (by simp)
    · exact h
  | l :: ls, result, cur, hl, hc, hr => by
    rw [wrapLines]
    have hnl : '\n' ∉ trim l := fun h => hl l (by simp) (trim_subset h)
    split
    · apply wrapLines_fi w lw hm ls _ _ (fun x hx => hl x (by simp [hx])) (spaces_no_nl m)
      rcases hr with rfl | ⟨h, hne, rfl⟩
      · simp only [if_true, List.nil_append]
        by_cases hz : cur ++ trim l = []
        · exact .inl hz
        · exact .inr ⟨fi_line (by simp [hc, hnl]), hz, trivial⟩
      · right
        rw [if_neg hne]
        refine ⟨?_, by simp, rfl⟩
        have := h.nl (b := spaces m ++ trim l) (ai_line (by simp [hc, hnl])
          (.inr ((spaces_prefix hm).trans (List.prefix_append _ _))))
        simpa using this
    · have hmerge : '\n' ∉ mergeLines (trim l) ls :=
        mergeLines_no_nl hnl (fun x hx => hl x (by simp [hx]))
      rcases hr with rfl | ⟨h, hne, rfl⟩
      · simpa using wrapSingle_fi w lw hc hmerge hm
      · rw [if_neg hne]
        have := h.nl (wrapSingle_ai w lw hmerge hm)
        simpa using this

theorem wrapSegment_fi (w : List Char → Nat) {text fp : List Char} {m : Nat} (lw : Nat) (hf : '\n' ∉ fp)
    (ht : '\n' ∉ text) (hm : n ≤ m) : FI n (wrapSegment w text fp (spaces m) lw) := by
  rw [wrapSegment]
  split
  · exact wrapSingle_fi w lw hf ht hm
  · exact wrapLines_fi w lw hm _ _ _ (fun l hl hn => ht (mem_splitOn_subset hl hn)) hf (.inl rfl)

theorem wrapTextFirstLine_fi (w : List Char → Nat) {text fp : List Char} {m : Nat} (lw : Nat) (hf : '\n' ∉ fp)
    (hm : n ≤ m) : FI n (wrapTextFirstLine w text fp (spaces m) lw) := by
  have hall := splitOn_not_mem '\n' text
  have hj := join_splitOn '\n' text
  rw [wrapTextFirstLine]
  split
  · next h => exact absurd h (splitOn_ne_nil _ _)
  · next x h =>
    rw [h] at hall hj
    have : '\n' ∉ text := by rw [← hj]; exact hall x (by simp)
    exact wrapSegment_fi w lw hf this hm
  · next s rest _ h =>
    rw [h] at hall
    have key : ∀ (rest : List (List Char)) (a : List Char), (∀ s ∈ rest, '\n' ∉ s) → FI n a →
        FI n (a ++ rest.flatMap fun s => [' ', ' ', '\n'] ++ spaces m ++ wrapSegment w s [] (spaces m) lw) := by
      intro rest
      induction rest with
      | nil => intro a _ h; simpa using h
      | cons s rest ih =>
        intro a hs ha
        have hseg := wrapSegment_fi (n := n) w (text := s) (fp := []) lw (by simp) (hs s (by simp)) hm
        have := ih (a ++ spaces 2 ++ '\n' :: (spaces m ++ wrapSegment w s [] (spaces m) lw))
          (fun x hx => hs x (by simp [hx]))
          ((ha.right 2).nl (hseg.indent (spaces_no_nl m) (spaces_prefix hm)))
        simpa [spaces, List.replicate] using this
    exact key rest _ (fun x hx => hall x (by simp [hx])) (wrapSegment_fi w lw hf (hall s (by simp)) hm)

end Hongdown
