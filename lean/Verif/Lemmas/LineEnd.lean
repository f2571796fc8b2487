import Verif.Lemmas.Quote
import Verif.Lemmas.WrapEnd
import Verif.Lemmas.WrapHead
import Verif.Spec.LineEnd

/-!
# Tidy lines
-/

namespace Hongdown
open Model Spec

/-- A line with something to see. -/
def LineV (h : Bool) (l : List Char) : Prop := EndsVisible l ∨ (h = true ∧ BreakLine l)

/-- Tidy lines, and something to see on the first. -/
def Th (h : Bool) (t : List Char) : Prop :=
  ∃ l ls, splitOn '\n' t = l :: ls ∧ LineV h l ∧ ∀ x ∈ ls, TidyLine h x

theorem LineV.tidy {h : Bool} {l : List Char} (v : LineV h l) : TidyLine h l := .inr v

theorem Spec.EndsVisible.left {l : List Char} (v : EndsVisible l) (m : List Char) : EndsVisible (m ++ l) := by
  obtain ⟨u, c, rfl, hc⟩ := v
  exact ⟨m ++ u, c, by simp, hc⟩

theorem LineV.left {h : Bool} {l : List Char} (v : LineV h l) (m : List Char) : LineV h (m ++ l) := by
  rcases v with v | ⟨e, u, rfl, v⟩
  · exact .inl (v.left m)
  · exact .inr ⟨e, m ++ u, by simp, v.left m⟩

theorem splitOn_append (c : Char) (a b : List Char) : ∃ i l m r, splitOn c a = i ++ [l] ∧ splitOn c b = m :: r ∧
    splitOn c (a ++ b) = i ++ (l ++ m) :: r := by
  induction a with
  | nil =>
    cases hb : splitOn c b with
    | nil => exact absurd hb (splitOn_ne_nil _ _)
    | cons m r => exact ⟨[], [], m, r, rfl, rfl, by simpa using hb⟩
  | cons x a ih =>
    obtain ⟨i, l, m, r, h1, h2, h3⟩ := ih
    by_cases hx : x = c
    · subst hx
      exact ⟨[] :: i, l, m, r, by rw [splitOn, if_pos rfl, h1]; rfl, h2, by rw [List.cons_append, splitOn, if_pos rfl, h3]; rfl⟩
    · cases i with
      | nil =>
        exact ⟨[], x :: l, m, r, by rw [splitOn, if_neg hx, h1]; rfl, h2,
          by rw [List.cons_append, splitOn, if_neg hx, h3]; rfl⟩
      | cons y i =>
        exact ⟨(x :: y) :: i, l, m, r, by rw [splitOn, if_neg hx, h1]; rfl, h2,
          by rw [List.cons_append, splitOn, if_neg hx, h3]; rfl⟩

theorem Th.tidy {h : Bool} {t : List Char} (ht : Th h t) : TidyLines h t := by
  obtain ⟨l, ls, e, v, hl⟩ := ht
  intro x hx
  rw [e] at hx
  rcases List.mem_cons.mp hx with rfl | hx
  · exact v.tidy
  · exact hl x hx

theorem Th.append {h : Bool} {a b : List Char} (ha : Th h a) (hb : Th h b) : Th h (a ++ b) := by
  obtain ⟨i, l, m, r, h1, h2, h3⟩ := splitOn_append '\n' a b
  obtain ⟨l0, ls, e, v, hl⟩ := ha
  obtain ⟨m0, rs, e', v', hr⟩ := hb
  rw [h2] at e'
  cases e'
  rw [h1] at e
  cases i with
  | nil => exact ⟨_, _, h3, v'.left l, hr⟩
  | cons y i =>
    rw [List.cons_append] at e
    cases e
    refine ⟨_, _, h3, v, fun x hx => ?_⟩
    rcases List.mem_append.mp hx with hx | hx
    · exact hl x (by simp [hx])
    · rcases List.mem_cons.mp hx with rfl | hx
      · exact (v'.left l).tidy
      · exact hr x hx

theorem tidyLines_append {h : Bool} {a b : List Char} (ha : TidyLines h a) (hb : Th h b) : TidyLines h (a ++ b) := by
  obtain ⟨i, l, m, r, h1, h2, h3⟩ := splitOn_append '\n' a b
  obtain ⟨m0, rs, e', v', hr⟩ := hb
  rw [h2] at e'
  cases e'
  intro x hx
  rw [h3] at hx
  rcases List.mem_append.mp hx with hx | hx
  · exact ha x (by rw [h1]; simp [hx])
  · rcases List.mem_cons.mp hx with rfl | hx
    · exact (v'.left l).tidy
    · exact hr x hx

theorem tidyLines_nl {h : Bool} {a b : List Char} (ha : TidyLines h a) (hb : TidyLines h b) : TidyLines h (a ++ '\n' :: b) := by
  intro x hx
  rw [splitOn_append_cons] at hx
  rcases List.mem_append.mp hx with hx | hx
  · exact ha x hx
  · exact hb x hx

theorem tidyLines_nil (h : Bool) : TidyLines h [] := by
  intro l hl
  rw [List.mem_singleton.mp hl]
  exact .inl rfl

theorem Th.nl {h : Bool} {a b : List Char} (ha : Th h a) (hb : TidyLines h b) : Th h (a ++ '\n' :: b) := by
  obtain ⟨l, ls, e, v, hl⟩ := ha
  refine ⟨l, ls ++ splitOn '\n' b, by rw [splitOn_append_cons, e]; rfl, v, fun x hx => ?_⟩
  rcases List.mem_append.mp hx with hx | hx
  · exact hl x hx
  · exact hb x hx

theorem Th.left {h : Bool} {m t : List Char} (ht : Th h t) (hm : '\n' ∉ m) : Th h (m ++ t) := by
  obtain ⟨l, ls, e, v, hl⟩ := ht
  obtain ⟨i, l', m', r, h1, h2, h3⟩ := splitOn_append '\n' m t
  rw [e] at h2
  cases h2
  rw [splitOn_of_not_mem hm] at h1
  cases i with
  | nil => exact ⟨_, _, h3, v.left l', hl⟩
  | cons _ i => cases i <;> simp at h1

theorem th_line {h : Bool} {l : List Char} (hl : '\n' ∉ l) (v : LineV h l) : Th h l :=
  ⟨l, [], splitOn_of_not_mem hl, v, by simp⟩

theorem Th.ended {h : Bool} {t : List Char} (ht : Th h t) : Th h (t ++ ['\n']) := ht.nl (tidyLines_nil h)

theorem th_ended {h : Bool} {l : List Char} (hl : '\n' ∉ l) (v : EndsVisible l) : Th h (l ++ ['\n']) :=
  (th_line hl (.inl v)).ended

/-- One line, maybe empty. -/
theorem tidyLines_line {h : Bool} {l : List Char} (hl : '\n' ∉ l) (v : TidyLine h l) : TidyLines h l := by
  intro x hx
  rw [splitOn_of_not_mem hl] at hx
  rw [List.mem_singleton.mp hx]
  exact v

/-- Whole lines after tidy text. -/
theorem th_lines {h : Bool} {α : Type} {f : α → List Char} : ∀ (xs : List α) {a : List Char}, Th h (a ++ ['\n']) →
    (∀ x ∈ xs, ∃ l, f x = l ++ ['\n'] ∧ '\n' ∉ l ∧ TidyLine h l) → Th h (a ++ ['\n'] ++ xs.flatMap f)
  | [], a, ha, _ => by simpa using ha
  | x :: xs, a, ha, hf => by
    obtain ⟨l, e, hl, v⟩ := hf x (by simp)
    have h1 : Th h ((a ++ '\n' :: l) ++ ['\n']) := by
      obtain ⟨l0, ls, e0, v0, h0⟩ := ha
      rw [splitOn_append_cons] at e0
      have : splitOn '\n' ((a ++ '\n' :: l) ++ ['\n']) = splitOn '\n' a ++ [l, []] := by
        rw [List.append_assoc, List.cons_append, splitOn_append_cons, splitOn_append_cons, splitOn_of_not_mem hl]
        rfl
      cases ha' : splitOn '\n' a with
      | nil => exact absurd ha' (splitOn_ne_nil _ _)
      | cons y ys =>
        rw [ha'] at e0 this
        cases e0
        refine ⟨_, _, this, v0, fun z hz => ?_⟩
        have hz : z ∈ ys ++ [l, []] := hz
        simp only [List.mem_append, List.mem_cons, List.not_mem_nil, or_false] at hz
        rcases hz with hz | rfl | rfl
        · exact h0 z (by simp [hz])
        · exact v
        · exact .inl rfl
    have := th_lines xs h1 fun y hy => hf y (by simp [hy])
    rw [List.flatMap_cons, e]
    simpa using this

/-! ### Wrapping -/

theorem endsVisible_iff {l : List Char} : EndsVisible l ↔ ∃ c, l.getLast? = some c ∧ isWs c = false := by
  constructor
  · rintro ⟨u, c, rfl, hc⟩
    exact ⟨c, by simp, hc⟩
  · rintro ⟨c, e, hc⟩
    obtain ⟨u, rfl⟩ := getLast_snoc_iff.mp e
    exact ⟨u, c, rfl, hc⟩

theorem isWs_nul : isWs '\x00' = false := by decide

theorem trimmed_trim {s : List Char} (h : Trimmed s) : trim s = s := by
  obtain ⟨he, c, u, rfl, hc⟩ := h
  have h1 : trimStart (c :: u) = c :: u := by rw [trimStart, List.dropWhile_cons, hc]; rfl
  rw [trim, h1]
  obtain ⟨d, e, hd⟩ := endsVisible_iff.mp he
  exact trimEnd_of_getLast (by intro x hx; rw [e] at hx; cases hx; exact hd)

/-- A segment whose pieces are trimmed begins and ends with a visible character, no soft break. -/
theorem segment_ends {s : List Char} (h : ∀ piece ∈ splitOn '\x00' s, Trimmed piece) :
    (∃ c, s.head? = some c ∧ isWs c = false ∧ c ≠ nul) ∧ ∃ c, s.getLast? = some c ∧ isWs c = false ∧ c ≠ nul := by
  have hn := splitOn_not_mem '\x00' s
  have hj := join_splitOn '\x00' s
  constructor
  · cases hs : splitOn '\x00' s with
    | nil => exact absurd hs (splitOn_ne_nil _ _)
    | cons a r =>
      rw [hs] at hj h hn
      obtain ⟨_, c, u, rfl, hc⟩ := h a (by simp)
      refine ⟨c, ?_, hc, ?_⟩
      · rw [← hj]; exact joinWith_head rfl
      · rintro rfl
        exact hn (nul :: u) (by simp) (by simp [nul])
  · rcases List.eq_nil_or_concat (splitOn '\x00' s) with hs | ⟨i, a, hs⟩
    · exact absurd hs (splitOn_ne_nil _ _)
    · rw [List.concat_eq_append] at hs
      have ha : a ∈ splitOn '\x00' s := by rw [hs]; simp
      obtain ⟨c, e, hc⟩ := endsVisible_iff.mp (h a ha).1
      refine ⟨c, ?_, hc, ?_⟩
      · rw [← hj]
        refine joinWith_end _ _ (splitOn_ne_nil _ _) ?_
        simp only [hs, List.getLast_concat]
        exact e
      · rintro rfl
        exact hn a ha (List.mem_of_mem_getLast? e)

theorem th_of_lines {h : Bool} {s : List Char} (hs : ∀ l ∈ splitOn '\n' s, TidyLine h l) {c : Char} (hh : s.head? = some c)
    (hc : c ≠ '\n') : Th h s := by
  obtain ⟨l, ls, e, hl⟩ := splitOn_first hh hc
  refine ⟨l, ls, e, ?_, fun x hx => hs x (by rw [e]; simp [hx])⟩
  rcases hs l (by rw [e]; simp) with rfl | h
  · cases hl
  · exact h

theorem plain_of_last {h : Bool} {l : List Char} (hl : ∀ c ∈ l.getLast?, isWs c = false) : TidyLine h l := by
  cases hg : l.getLast? with
  | none => exact .inl (by simpa using hg)
  | some c => exact .inr (.inl (endsVisible_iff.mpr ⟨c, hg, hl c hg⟩))

theorem wrapSegment_th {h : Bool} (w : List Char → Nat) {s fp pfx : List Char} (lw : Nat) (hf : '\n' ∉ fp) (hp : '\n' ∉ pfx)
    (hs : '\n' ∉ s) (ht : ∀ piece ∈ splitOn '\x00' s, Trimmed piece) (hn : fp = [] ∨ trimEnd fp ≠ []) :
    Th h (wrapSegment w s fp pfx lw) ∧ EndsVisible (wrapSegment w s fp pfx lw) := by
  obtain ⟨⟨c, e1, c1, n1⟩, d, e2, c2, n2⟩ := segment_ends ht
  have hlast := wrapSegment_last (w := w) (lw := lw) hf hp hs (fun _ l hl => by
    rw [trimmed_trim (ht l hl)]
    obtain ⟨_, c, u, rfl, _⟩ := ht l hl
    simp)
  refine ⟨?_, endsVisible_iff.mpr ⟨d, wrapSegment_end w e2 c2 n2, c2⟩⟩
  rcases hn with rfl | hn
  · exact th_of_lines (fun l hl => plain_of_last (hlast l hl)) (wrapSegment_head w e1 c1 n1) (by rintro rfl; revert c1; decide)
  · obtain ⟨l, ls, e, hl, _⟩ := wrapSegment_fl w lw hf hp hs (List.prefix_rfl (l := trimEnd fp)) (List.nil_prefix (l := trimEnd pfx))
    refine ⟨l, ls, e, ?_, fun x hx => plain_of_last (hlast x (by rw [e]; simp [hx]))⟩
    rcases plain_of_last (h := h) (hlast l (by rw [e]; simp)) with rfl | h
    · exact absurd (List.prefix_nil.mp hl) hn
    · exact h

theorem Th.hard {o : List Char} (ho : Th true o) (hv : EndsVisible o) : Th true (o ++ [' ', ' ']) := by
  obtain ⟨c, e, hc⟩ := endsVisible_iff.mp hv
  obtain ⟨i, l, h1, h2⟩ := splitOn_append_right (c := '\n') (t := [' ', ' ']) (by decide) o
  have hl := splitOn_end (d := '\n') e (by rintro rfl; revert hc; decide)
  simp only [h1, List.getLast_concat] at hl
  have hb : BreakLine (l ++ [' ', ' ']) := ⟨l, rfl, endsVisible_iff.mpr ⟨c, hl, hc⟩⟩
  obtain ⟨l0, ls, e0, v, ht⟩ := ho
  rw [h1] at e0
  cases i with
  | nil => exact ⟨_, _, h2, .inr ⟨rfl, hb⟩, by simp⟩
  | cons y i =>
    cases e0
    refine ⟨_, _, h2, v, fun x hx => ?_⟩
    rcases List.mem_append.mp hx with hx | hx
    · exact ht x (by simp [hx])
    · rw [List.mem_singleton.mp hx]
      exact .inr (.inr ⟨rfl, hb⟩)

theorem tidyText_single {s : List Char} (h : TidyText false s) : splitOn '\n' s = [s] := splitOn_of_not_mem (h.2 rfl)

theorem wrapText_th {h : Bool} (w : List Char → Nat) {text pfx : List Char} (lw : Nat) (hp : '\n' ∉ pfx)
    (ht : TidyText h text) (hn : pfx = [] ∨ trimEnd pfx ≠ []) : Th h (wrapText w text pfx lw) := by
  rw [wrapText_eq]
  have hnl := splitOn_not_mem '\n' text
  cases h with
  | false =>
    have hs := ht.1
    rw [tidyText_single ht] at hnl hs ⊢
    exact (wrapSegment_th w lw hp hp (hnl _ (by simp)) (hs _ (by simp)) hn).1
  | true =>
    have hs := ht.1
    have hne := splitOn_ne_nil '\n' text
    generalize splitOn '\n' text = segs at hnl hs hne
    induction segs with
    | nil => exact absurd rfl hne
    | cons s segs ih =>
      have h1 := wrapSegment_th (h := true) w lw hp hp (hnl s (by simp)) (hs s (by simp)) hn
      cases segs with
      | nil => exact h1.1
      | cons s' segs =>
        rw [List.map_cons, joinWith_cons _ _ (by simp)]
        have h2 := ih (fun x hx => hnl x (by simp [hx])) (fun x hx => hs x (by simp [hx])) (by simp)
        have := (h1.1.hard h1.2).nl h2.tidy
        simpa using this

theorem trimEnd_eq_self {s : List Char} (h : EndsVisible s) : trimEnd s = s := by
  obtain ⟨d, e, hd⟩ := endsVisible_iff.mp h
  exact trimEnd_of_getLast (by intro x hx; rw [e] at hx; cases hx; exact hd)

theorem tidyText_trim {h : Bool} {s : List Char} (ht : TidyText h s) : trim s = s := by
  have hs := ht.1
  have hj := join_splitOn '\n' s
  refine trimmed_trim ⟨?_, ?_⟩
  · rcases List.eq_nil_or_concat (splitOn '\n' s) with he | ⟨i, a, he⟩
    · exact absurd he (splitOn_ne_nil _ _)
    · rw [List.concat_eq_append] at he
      obtain ⟨_, d, e, c, _⟩ := segment_ends (hs a (by rw [he]; simp))
      refine endsVisible_iff.mpr ⟨d, ?_, c⟩
      rw [← hj]
      refine joinWith_end _ _ (splitOn_ne_nil _ _) ?_
      simp only [he, List.getLast_concat]
      exact e
  · cases he : splitOn '\n' s with
    | nil => exact absurd he (splitOn_ne_nil _ _)
    | cons a r =>
      obtain ⟨⟨c, e, hc, _⟩, _⟩ := segment_ends (hs a (by rw [he]; simp))
      rw [he] at hj
      have : s.head? = some c := by rw [← hj]; exact joinWith_head e
      cases s with
      | nil => cases this
      | cons x u => cases this; exact ⟨_, u, rfl, hc⟩

theorem wrapTextFirstLine_th {h : Bool} (w : List Char → Nat) {text pfx : List Char} (lw : Nat) (hp : '\n' ∉ pfx)
    (ht : TidyText h text) : Th h (wrapTextFirstLine w (trim text) [] pfx lw) := by
  rw [tidyText_trim ht, wrapTextFirstLine]
  have hnl := splitOn_not_mem '\n' text
  have hs := ht.1
  have hj := join_splitOn '\n' text
  split
  · next e => exact absurd e (splitOn_ne_nil _ _)
  · next x e =>
    rw [e] at hj hnl hs
    have hj : x = text := hj
    subst hj
    exact (wrapSegment_th w lw (by simp) hp (hnl _ (by simp)) (hs _ (by simp)) (.inl rfl)).1
  · next s rest hr e =>
    rw [e] at hnl hs
    cases h with
    | false => rw [tidyText_single ht] at e; cases e; exact (hr rfl).elim
    | true =>
      have h1 := wrapSegment_th (h := true) w (fp := []) lw (by simp) hp (hnl s (by simp)) (hs s (by simp)) (.inl rfl)
      have key : ∀ (rest : List (List Char)) (o : List Char), Th true o → EndsVisible o →
          (∀ x ∈ rest, '\n' ∉ x ∧ ∀ piece ∈ splitOn '\x00' x, Trimmed piece) →
          Th true (o ++ rest.flatMap fun s => [' ', ' ', '\n'] ++ pfx ++ wrapSegment w s [] pfx lw) := by
        intro rest
        induction rest with
        | nil => intro o ho _ _; simpa using ho
        | cons x rest ih =>
          intro o ho hv hx
          have h2 := wrapSegment_th (h := true) w (fp := []) lw (by simp) hp (hx x (by simp)).1 (hx x (by simp)).2 (.inl rfl)
          have h3 := (ho.hard hv).nl (h2.1.left hp).tidy
          have h4 := ih (o ++ [' ', ' '] ++ '\n' :: (pfx ++ wrapSegment w x [] pfx lw)) h3
            (by simpa using h2.2.left (o ++ [' ', ' ', '\n'] ++ pfx)) (fun y hy => hx y (by simp [hy]))
          rw [List.flatMap_cons]
          simpa using h4
      exact key rest _ h1.1 h1.2 fun x hx => ⟨hnl x (by simp [hx]), hs x (by simp [hx])⟩

end Hongdown
