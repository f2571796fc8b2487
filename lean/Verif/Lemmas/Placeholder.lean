import Verif.Lemmas.Heading
import Verif.Lemmas.Lists

/-!
# The placeholders for proper nouns of several words
-/

namespace Hongdown
open Model Spec

/-! ### Replacing a text -/

/-- `str::replace`. -/
def RA (p t s : List Char) : List Char := replaceAll p t s.length s

theorem replaceAll_fuel {p : List Char} (hp : p ≠ []) (t : List Char) : ∀ (fuel : Nat) (s : List Char),
    s.length ≤ fuel → replaceAll p t fuel s = RA p t s := by
  intro fuel
  induction fuel using Nat.strongRecOn with
  | ind fuel ih =>
    intro s hs
    cases s with
    | nil => cases fuel <;> rfl
    | cons c s =>
      cases fuel with
      | zero => simp at hs
      | succ fuel =>
        rw [RA, List.length_cons, replaceAll, replaceAll]
        have hl : s.length ≤ fuel := by simpa using hs
        split
        · rename_i r hr
          have e := stripPrefix?_iff.1 hr
          have hr' : r.length ≤ s.length := by
            have := congrArg List.length e
            have : 0 < p.length := List.length_pos_iff.2 hp
            simp at *
            omega
          rw [ih fuel (by omega) r (by omega), ih s.length (by omega) r hr']
        · rw [ih fuel (by omega) s hl]
          rfl

theorem RA_nil (p t : List Char) : RA p t [] = [] := rfl

theorem RA_cons {p : List Char} (t : List Char) {c : Char} {s : List Char} (h : ¬ p <+: c :: s) :
    RA p t (c :: s) = c :: RA p t s := by
  rw [RA, List.length_cons, replaceAll, stripPrefix?_none.2 h]
  rfl

theorem RA_found {p : List Char} (hp : p ≠ []) (t s : List Char) : RA p t (p ++ s) = t ++ RA p t s := by
  obtain ⟨c, p', rfl⟩ := List.exists_cons_of_ne_nil hp
  rw [RA, List.cons_append, List.length_cons, replaceAll,
    show stripPrefix? (c :: p') (c :: (p' ++ s)) = some s from stripPrefix?_iff.2 rfl]
  simp only
  rw [replaceAll_fuel hp t _ s (by simp)]

theorem RA_cut {p : List Char} (hp : p ≠ []) (t : List Char) {c : Char} (hc : c ∉ p) : ∀ (a b : List Char),
    RA p t (a ++ c :: b) = RA p t a ++ c :: RA p t b := by
  intro a b
  generalize hn : a.length = n
  induction n using Nat.strongRecOn generalizing a with
  | ind n ih =>
    cases a with
    | nil =>
      rw [List.nil_append, RA_nil, List.nil_append, RA_cons]
      rintro ⟨r, hr⟩
      obtain ⟨x, p', rfl⟩ := List.exists_cons_of_ne_nil hp
      simp only [List.cons_append, List.cons.injEq] at hr
      exact hc (by simp [hr.1])
    | cons x a =>
      by_cases h : p <+: x :: a
      · obtain ⟨r, hr⟩ := h
        have hl : r.length < n := by
          have := congrArg List.length hr
          have : 0 < p.length := List.length_pos_iff.2 hp
          simp at *
          omega
        rw [← hr, List.append_assoc, RA_found hp, RA_found hp, ih _ hl r rfl, List.append_assoc]
      · have h' : ¬ p <+: x :: (a ++ c :: b) := by
          rintro ⟨r, hr⟩
          rw [← List.cons_append, List.append_eq_append_iff] at hr
          rcases hr with ⟨q, h1, h2⟩ | ⟨q, h1, h2⟩
          · exact h ⟨q, h1.symm⟩
          · cases q with
            | nil => exact h ⟨[], by simpa using h1⟩
            | cons y q =>
              simp only [List.cons_append, List.cons.injEq] at h2
              exact hc (by rw [h1, h2.1]; simp)
        rw [List.cons_append, RA_cons t h', RA_cons t h, ih a.length (by rw [← hn]; simp) a rfl]
        rfl

theorem RA_id {p : List Char} (t : List Char) {c : Char} (hc : c ∈ p) : ∀ s : List Char, c ∉ s → RA p t s = s
  | [], _ => rfl
  | x :: s, h => by
    rw [RA_cons t, RA_id t hc s (fun h' => h (by simp [h']))]
    rintro ⟨r, hr⟩
    exact h (by rw [← hr]; simp [hc])

/-! ### Placeholders -/

theorem placeholder_digits (i : Nat) : ∃ ds : List Char, placeholder i = '�' :: ds ++ ['�'] ∧ ds ≠ [] ∧
    (∀ c ∈ ds, isAsciiDigit c = true) ∧ decimal ds = some i := by
  have h := decimal_repr i
  obtain ⟨h1, h2⟩ := digits_of_decimal h
  exact ⟨_, rfl, h1, fun c hc => by simpa [isAsciiDigit] using h2 c hc, h⟩

theorem mark_placeholder (i : Nat) : '�' ∈ placeholder i := by simp [placeholder]

theorem placeholder_ne (i : Nat) : placeholder i ≠ [] := by simp [placeholder]

/-- Not a character of a placeholder. -/
def Cut (c : Char) : Prop := c ≠ '�' ∧ isAsciiDigit c = false

theorem cut_placeholder {c : Char} (h : Cut c) (i : Nat) : c ∉ placeholder i := by
  obtain ⟨ds, e, _, hd, _⟩ := placeholder_digits i
  rw [e]
  intro hm
  simp only [List.cons_append, List.mem_cons, List.mem_append, List.not_mem_nil, or_false] at hm
  rcases hm with hm | hm | hm
  · exact h.1 hm
  · exact absurd (hd c hm) (by simp [h.2])
  · exact h.1 hm

/-- The replacements belong to placeholders. -/
def RepsOk (reps : List (List Char × List Char)) : Prop := ∀ r ∈ reps, ∃ i, r.1 = placeholder i

theorem restore_nil (s : List Char) : restorePlaceholders s [] = s := rfl

theorem restore_cons (s : List Char) (r : List Char × List Char) (reps : List (List Char × List Char)) :
    restorePlaceholders s (r :: reps) = restorePlaceholders (RA r.1 r.2 s) reps := rfl

theorem restore_cut {reps : List (List Char × List Char)} (hr : RepsOk reps) {c : Char} (hc : Cut c) :
    ∀ a b : List Char, restorePlaceholders (a ++ c :: b) reps =
      restorePlaceholders a reps ++ c :: restorePlaceholders b reps := by
  induction reps with
  | nil => intro a b; rfl
  | cons r reps ih =>
    intro a b
    obtain ⟨i, hi⟩ := hr r (by simp)
    rw [restore_cons, restore_cons, restore_cons, RA_cut (by rw [hi]; exact placeholder_ne i) _
      (by rw [hi]; exact cut_placeholder hc i), ih (fun x hx => hr x (by simp [hx]))]

theorem restore_id {reps : List (List Char × List Char)} (hr : RepsOk reps) {s : List Char} (hs : '�' ∉ s) :
    restorePlaceholders s reps = s := by
  induction reps with
  | nil => rfl
  | cons r reps ih =>
    obtain ⟨i, hi⟩ := hr r (by simp)
    rw [restore_cons, RA_id (c := '�') _ (by rw [hi]; exact mark_placeholder i) s hs,
      ih (fun x hx => hr x (by simp [hx]))]

/-! ### Text with placeholders -/

/-- Characters and placeholders, with what they stand for. -/
inductive Enc (u : Uni) (R : List (List Char)) : List Char → List Char → Prop where
  | nil : Enc u R [] []
  | char (c : Char) (s d : List Char) : c ≠ '�' → (u.alphanumeric c = true → s.head? ≠ some '�') → Enc u R s d →
      Enc u R (c :: s) (c :: d)
  | ph (i : Nat) (x s d : List Char) : R[i]? = some x → Enc u R s d → Enc u R (placeholder i ++ s) (x ++ d)

/-- Characters and placeholders. -/
inductive Marked : List Char → Prop where
  | nil : Marked []
  | char (c : Char) (s : List Char) : c ≠ '�' → Marked s → Marked (c :: s)
  | ph (i : Nat) (s : List Char) : Marked s → Marked (placeholder i ++ s)

theorem Enc.marked {u : Uni} {R : List (List Char)} {s d : List Char} (h : Enc u R s d) : Marked s := by
  induction h with
  | nil => exact .nil
  | char c s d h1 _ _ ih => exact .char c s h1 ih
  | ph i x s d _ _ ih => exact .ph i s ih

theorem Enc.mono {u : Uni} {R R' : List (List Char)} {s d : List Char} (h : Enc u R s d) : Enc u (R ++ R') s d := by
  induction h with
  | nil => exact .nil
  | char c s d h1 h2 _ ih => exact .char c s d h1 h2 ih
  | ph i x s d h _ ih =>
    refine .ph i x s d ?_ ih
    rw [List.getElem?_append_left]
    · exact h
    · exact (List.getElem?_eq_some_iff.1 h).1

theorem Enc.plain {u : Uni} {R : List (List Char)} : ∀ {s : List Char}, '�' ∉ s → Enc u R s s
  | [], _ => .nil
  | c :: s, h => by
    refine .char c s s (fun e => h (by simp [e])) (fun _ e => ?_) (Enc.plain fun h' => h (by simp [h']))
    cases s with
    | nil => simp at e
    | cons x s => simp at e; exact h (by simp [e])

/-- Split after characters. -/
theorem Enc.split {u : Uni} {R : List (List Char)} : ∀ {a b d : List Char}, '�' ∉ a → Enc u R (a ++ b) d →
    ∃ d', d = a ++ d' ∧ Enc u R b d'
  | [], b, d, _, h => ⟨d, rfl, h⟩
  | c :: a, b, d, hc, h => by
    generalize hs : c :: a ++ b = s at h
    cases h with
    | nil => simp at hs
    | char c' s d h1 h2 h3 =>
      simp only [List.cons_append, List.cons.injEq] at hs
      obtain ⟨rfl, rfl⟩ := hs
      obtain ⟨d', e, h'⟩ := Enc.split (fun h => hc (by simp [h])) h3
      exact ⟨d', by rw [e]; rfl, h'⟩
    | ph i x s d h1 h2 =>
      simp only [placeholder, List.cons_append, List.cons.injEq] at hs
      exact absurd (by simp [hs.1]) hc

theorem Marked.cut {c : Char} (hc : Cut c) {b : List Char} : ∀ {s : List Char}, Marked s → ∀ a, s = a ++ c :: b →
    Marked a ∧ Marked b := by
  intro s h
  induction h with
  | nil => intro a h; simp at h
  | char x s hx hs ih =>
    intro a h
    cases a with
    | nil =>
      simp only [List.nil_append, List.cons.injEq] at h
      exact ⟨.nil, h.2 ▸ hs⟩
    | cons y a =>
      simp only [List.cons_append, List.cons.injEq] at h
      obtain ⟨h1, h2⟩ := ih a h.2
      exact ⟨.char y a (h.1 ▸ hx) h1, h2⟩
  | ph i s hs ih =>
    intro a h
    rw [List.append_eq_append_iff] at h
    rcases h with ⟨q, h1, h2⟩ | ⟨q, h1, h2⟩
    · obtain ⟨h3, h4⟩ := ih q h2
      exact ⟨h1 ▸ .ph i q h3, h4⟩
    · cases q with
      | nil =>
        rw [List.append_nil] at h1
        obtain ⟨_, h4⟩ := ih [] (by simpa using h2.symm)
        exact ⟨h1 ▸ (List.append_nil (placeholder i) ▸ Marked.ph i [] .nil), h4⟩
      | cons y q =>
        simp only [List.cons_append, List.cons.injEq] at h2
        exact absurd (by rw [h1, h2.1]; simp) (cut_placeholder hc i)

/-- The first placeholder. -/
theorem Marked.first {s : List Char} (h : Marked s) (hm : '�' ∈ s) :
    ∃ a i b, s = a ++ placeholder i ++ b ∧ '�' ∉ a := by
  induction h with
  | nil => simp at hm
  | char c s hc _ ih =>
    obtain ⟨a, i, b, e, ha⟩ := ih (by
      rcases List.mem_cons.1 hm with h | h
      · exact absurd h.symm hc
      · exact h)
    exact ⟨c :: a, i, b, by rw [e]; rfl, by simp [ha, Ne.symm hc]⟩
  | ph i s _ _ => exact ⟨[], i, s, rfl, by simp⟩

/-! ### Restoring -/

def isMark (c : Char) : Bool := c = '�'

/-- No digits with the mark right after them. -/
def Quiet (s : List Char) : Prop := (s.dropWhile isAsciiDigit).head? ≠ some '�'

/-- What may follow a placeholder. -/
def Safe (s : List Char) : Prop := s.head? = some '�' ∨ Quiet s

theorem quiet_nil : Quiet [] := by simp [Quiet]

theorem quiet_cons {c : Char} {s : List Char} (hc : c ≠ '�') (h : isAsciiDigit c = true → Quiet s) : Quiet (c :: s) := by
  unfold Quiet
  rw [List.dropWhile_cons]
  split
  · rename_i hd; exact h hd
  · simpa using hc

theorem quiet_of_cons {c : Char} {s : List Char} (hc : isAsciiDigit c = true) (h : Quiet (c :: s)) : Quiet s := by
  unfold Quiet at h
  rwa [List.dropWhile_cons, if_pos hc] at h

theorem quiet_append {x : List Char} (hs : ' ' ∈ x) (hm : '�' ∉ x) (s : List Char) : Quiet (x ++ s) := by
  induction x with
  | nil => simp at hs
  | cons c x ih =>
    refine quiet_cons (fun e => hm (by simp [e])) fun hd => ih ?_ (fun h => hm (by simp [h]))
    rcases List.mem_cons.1 hs with h | h
    · rw [← h] at hd; exact absurd hd (by decide)
    · exact h

/-- Characters and placeholders from the `k`th on. -/
inductive EncS (k : Nat) (R : List (List Char)) : List Char → List Char → Prop where
  | nil : EncS k R [] []
  | char (c : Char) (s d : List Char) : c ≠ '�' → EncS k R s d → EncS k R (c :: s) (c :: d)
  | ph (i : Nat) (x s d : List Char) : R[i]? = some x → Safe s → EncS k R s d →
      EncS k R (placeholder (k + i) ++ s) (x ++ d)

theorem Enc.safe {u : Uni} (hu : ∀ c, isAsciiDigit c = true → u.alphanumeric c = true) {R : List (List Char)}
    {s d : List Char} (h : Enc u R s d) : Safe s := by
  induction h with
  | nil => exact .inr quiet_nil
  | char c s d h1 h2 _ ih =>
    refine .inr (quiet_cons h1 fun hd => ih.resolve_left (h2 (hu c hd)))
  | ph i x s d _ _ _ => exact .inl (by simp [placeholder])

theorem Enc.encS {u : Uni} (hu : ∀ c, isAsciiDigit c = true → u.alphanumeric c = true) {R : List (List Char)}
    {s d : List Char} (h : Enc u R s d) : EncS 0 R s d := by
  induction h with
  | nil => exact .nil
  | char c s d h1 _ _ ih => exact .char c s d h1 ih
  | ph i x s d h hs ih => exact Nat.zero_add i ▸ .ph i x s d h (hs.safe hu) ih

theorem encS_plain {k : Nat} {R : List (List Char)} {s d : List Char} (h : EncS k R s d) :
    ∀ x : List Char, '�' ∉ x → EncS k R (x ++ s) (x ++ d)
  | [], _ => h
  | c :: x, hx => .char c _ _ (fun e => hx (by simp [e])) (encS_plain h x fun h => hx (by simp [h]))

theorem RA_digits {p : List Char} (t s : List Char) (hp : ∃ q, p = '�' :: q) : ∀ ds : List Char, '�' ∉ ds →
    RA p t (ds ++ s) = ds ++ RA p t s
  | [], _ => rfl
  | c :: ds, h => by
    obtain ⟨q, rfl⟩ := hp
    rw [List.cons_append, RA_cons, RA_digits t s ⟨q, rfl⟩ ds (fun h' => h (by simp [h']))]
    · rfl
    · rintro ⟨r, hr⟩
      simp only [List.cons_append, List.cons.injEq] at hr
      exact h (by rw [hr.1]; simp)

theorem digit_ne_mark {ds : List Char} (h : ∀ c ∈ ds, isAsciiDigit c = true) : '�' ∉ ds := by
  intro hm
  exact absurd (h _ hm) (by decide)

theorem not_safe {ds : List Char} (hne : ds ≠ []) (hd : ∀ c ∈ ds, isAsciiDigit c = true) (s : List Char) :
    ¬ Safe (ds ++ '�' :: s) := by
  rintro (h | h)
  · obtain ⟨c, ds, rfl⟩ := List.exists_cons_of_ne_nil hne
    simp at h
    exact absurd (hd c (by simp)) (by rw [h]; decide)
  · unfold Quiet at h
    rw [List.dropWhile_append_of_pos (by simpa using hd), List.dropWhile_cons_of_neg (by decide)] at h
    simp at h

/-- Another placeholder stays. -/
theorem RA_other {j k : Nat} (hjk : j ≠ k) (t : List Char) {s : List Char} (hs : Safe s) :
    RA (placeholder k) t (placeholder j ++ s) = placeholder j ++ RA (placeholder k) t s := by
  obtain ⟨ds, e, hne, hd, hv⟩ := placeholder_digits j
  obtain ⟨es, e', hne', hd', hv'⟩ := placeholder_digits k
  rw [e, List.cons_append, List.cons_append, List.append_assoc, RA_cons, RA_digits _ _ ⟨_, e'⟩ ds (digit_ne_mark hd),
    List.cons_append, List.nil_append, RA_cons]
  · simp
  · rintro ⟨r, hr⟩
    rw [e'] at hr
    simp only [List.cons_append, List.cons.injEq, true_and, List.append_assoc, List.nil_append] at hr
    exact not_safe hne' hd' r (hr ▸ hs)
  · rintro ⟨r, hr⟩
    rw [e'] at hr
    simp only [List.cons_append, List.cons.injEq, true_and, List.append_assoc, List.nil_append] at hr
    have h1 := congrArg (List.takeWhile isAsciiDigit) hr
    rw [List.takeWhile_append_of_pos hd', List.takeWhile_append_of_pos hd, List.takeWhile_cons_of_neg (by decide),
      List.takeWhile_cons_of_neg (by decide), List.append_nil, List.append_nil] at h1
    rw [h1, hv] at hv'
    exact hjk (by simpa using hv')

theorem restore_step {k : Nat} {x : List Char} {R : List (List Char)} (hx : ' ' ∈ x) (hm : '�' ∉ x) {s d : List Char}
    (h : EncS k (x :: R) s d) : EncS (k + 1) R (RA (placeholder k) x s) d ∧
      (Quiet s → Quiet (RA (placeholder k) x s)) ∧ (Safe s → Safe (RA (placeholder k) x s)) := by
  induction h with
  | nil => exact ⟨.nil, fun h => h, fun h => h⟩
  | char c s d hc hs ih =>
    obtain ⟨h1, h2, _⟩ := ih
    have e : RA (placeholder k) x (c :: s) = c :: RA (placeholder k) x s := by
      refine RA_cons x ?_
      rintro ⟨r, hr⟩
      simp only [placeholder, List.cons_append, List.cons.injEq] at hr
      exact hc hr.1.symm
    have hq : Quiet (c :: s) → Quiet (c :: RA (placeholder k) x s) := fun h =>
      quiet_cons hc fun hd => h2 (quiet_of_cons hd h)
    rw [e]
    refine ⟨.char c _ _ hc h1, hq, fun h => .inr (hq (h.resolve_left (by simpa using hc)))⟩
  | ph i y s d hi hsafe hs ih =>
    obtain ⟨h1, h2, h3⟩ := ih
    cases i with
    | zero =>
      simp only [List.getElem?_cons_zero, Option.some.injEq] at hi
      subst hi
      simp only [Nat.add_zero, RA_found (placeholder_ne k)]
      exact ⟨encS_plain h1 x hm, fun _ => quiet_append hx hm _, fun _ => .inr (quiet_append hx hm _)⟩
    | succ i =>
      rw [RA_other (by omega) x hsafe]
      simp only [List.getElem?_cons_succ] at hi
      refine ⟨?_, fun h => ?_, fun _ => .inl (by simp [placeholder])⟩
      · rw [show k + (i + 1) = k + 1 + i by omega]
        exact .ph i y _ _ hi (h3 hsafe) h1
      · simp [Quiet, placeholder, List.dropWhile_cons, isAsciiDigit] at h

theorem restore_all {R : List (List Char)} (hR : ∀ x ∈ R, ' ' ∈ x ∧ '�' ∉ x) : ∀ {k : Nat} {s d : List Char},
    EncS k R s d → ∀ reps : List (List Char × List Char), reps = (R.mapIdx fun i x => (placeholder (k + i), x)) →
    restorePlaceholders s reps = d := by
  induction R with
  | nil =>
    rintro k s d h _ rfl
    rw [List.mapIdx_nil, restore_nil]
    induction h with
    | nil => rfl
    | char c s d _ _ ih => rw [ih]
    | ph i x s d h _ _ _ => simp at h
  | cons x R ih =>
    rintro k s d h _ rfl
    rw [List.mapIdx_cons, restore_cons]
    refine ih (fun y hy => hR y (by simp [hy])) (restore_step (hR x (by simp)).1 (hR x (by simp)).2 h).1 _ ?_
    simp only [Nat.add_assoc, Nat.add_comm 1]

/-! ### Putting placeholders in -/

section
variable {u : Uni} {f : Char → List Char} (hf : LetterFold u f)
include hf

omit hf in
theorem foldCase_straight (hq : f '’' = f '\'') (s : List Char) : foldCase f (s.map fun c => if c = '’' then '\'' else c) = foldCase f s := by
  induction s with
  | nil => rfl
  | cons c s ih =>
    rw [List.map_cons, foldCase_cons, foldCase_cons, ih]
    split
    · rename_i h; rw [h, hq]
    · rfl

theorem matches_fold (hq : f '’' = f '\'') {a b : List Char} (h : matchesNoun u a b = true) : foldCase f a = foldCase f b := by
  have h : ((u.strLower a).map fun c => if c = '’' then '\'' else c) =
      (u.strLower b).map fun c => if c = '’' then '\'' else c := by
    simpa only [matchesNoun, decide_eq_true_eq] using h
  rw [← hf.lower a, ← foldCase_straight hq, h, foldCase_straight hq, hf.lower]

omit hf in
theorem replaceNoun_short {canonical key : List Char} : ∀ (fuel : Nat) (prev : Option Char) (i : Nat) (s : List Char),
    s.length < key.length → replaceNoun u canonical key fuel prev i s = (s, [])
  | 0, _, _, _, _ => rfl
  | _ + 1, _, _, [], _ => rfl
  | fuel + 1, prev, i, c :: rest, h => by
    rw [replaceNoun, if_pos]
    rw [List.length_take]
    omega

/-- Where no match starts, the text stays. -/
theorem replaceNoun_skip {canonical key : List Char} (i : Nat) (t : List Char) : ∀ (x : List Char) (fuel : Nat) (prev : Option Char),
    x ≠ [] → (∀ y z, x = y ++ z → z ≠ [] → matchesNoun u ((z ++ t).take key.length) key = false) →
    ∃ fuel' prev', x.getLast? = prev' ∧
      replaceNoun u canonical key fuel prev i (x ++ t) =
        (x ++ (replaceNoun u canonical key fuel' prev' i t).1, (replaceNoun u canonical key fuel' prev' i t).2) := by
  intro x
  induction x with
  | nil => intro _ _ h; exact absurd rfl h
  | cons c x ih =>
    intro fuel prev _ hm
    cases fuel with
    | zero => exact ⟨0, _, rfl, rfl⟩
    | succ fuel =>
      by_cases hs : (c :: x ++ t).length < key.length
      · refine ⟨0, _, rfl, ?_⟩
        rw [replaceNoun_short _ _ _ _ hs]
        rfl
      · have e : replaceNoun u canonical key (fuel + 1) prev i (c :: x ++ t) =
            (c :: (replaceNoun u canonical key fuel (some c) i (x ++ t)).1,
              (replaceNoun u canonical key fuel (some c) i (x ++ t)).2) := by
          have h0 := hm [] (c :: x) rfl (by simp)
          rw [List.cons_append] at h0 hs ⊢
          rw [replaceNoun, if_neg (by rw [List.length_take]; omega), h0]
          rfl
        rw [e]
        by_cases hx : x = []
        · subst hx
          exact ⟨fuel, some c, rfl, rfl⟩
        · obtain ⟨fuel', prev', h1, h2⟩ := ih fuel (some c) hx (fun y z e hz => hm (c :: y) z (by rw [e]; rfl) hz)
          refine ⟨fuel', prev', ?_, ?_⟩
          · rw [← h1, List.getLast?_cons]
            cases h : x.getLast? with
            | none => exact absurd (List.getLast?_eq_none_iff.1 h) hx
            | some y => rfl
          · rw [h2]; rfl

omit hf in
theorem possessiveAt_prefix (s : List Char) : ∃ t, s = possessiveAt s ++ t ∧ '�' ∉ possessiveAt s := by
  unfold possessiveAt
  split
  · exact ⟨_, rfl, by decide⟩
  · exact ⟨_, rfl, by decide⟩
  · exact ⟨s, rfl, by simp⟩

/-- A noun is replaced by placeholders, which stand for it. -/
theorem replaceNoun_enc {canonical key : List Char} (hk : foldCase f canonical = foldCase f key) (hm : '�' ∉ canonical)
    (hs : ' ' ∈ canonical) (hq : f '’' = f '\'') : ∀ (n : Nat) (s : List Char), s.length = n → ∀ (fuel : Nat) (prev : Option Char)
      (R : List (List Char)) (d : List Char), Enc u R s d →
      ∃ d', Enc u (R ++ (replaceNoun u canonical key fuel prev R.length s).2.map (·.2))
          (replaceNoun u canonical key fuel prev R.length s).1 d' ∧ foldCase f d' = foldCase f d ∧
        ((replaceNoun u canonical key fuel prev R.length s).2.map (·.1) =
          (replaceNoun u canonical key fuel prev R.length s).2.mapIdx fun j _ => placeholder (R.length + j)) ∧
        (∀ r ∈ (replaceNoun u canonical key fuel prev R.length s).2, ' ' ∈ r.2 ∧ '�' ∉ r.2) ∧
        (prev.any u.alphanumeric = true → s.head? ≠ some '�' →
          (replaceNoun u canonical key fuel prev R.length s).1.head? ≠ some '�') := by
  have hkm : '�' ∉ key := by rw [← foldCase_mark hf, ← hk, foldCase_mark hf]; exact hm
  have hks : ' ' ∈ key := by rw [← foldCase_space hf, ← hk, foldCase_space hf]; exact hs
  have sub_ok : ∀ a, matchesNoun u a key = true → '�' ∉ a ∧ ' ' ∈ a ∧ foldCase f canonical = foldCase f a := by
    intro a h
    have e := matches_fold hf hq h
    refine ⟨?_, ?_, by rw [hk, e]⟩
    · rw [← foldCase_mark hf, e, foldCase_mark hf]; exact hkm
    · rw [← foldCase_space hf, e, foldCase_space hf]; exact hks
  intro n
  induction n using Nat.strongRecOn with
  | ind n ih =>
    intro s hn fuel prev R d h
    have stay : ∀ p : List Char × List (List Char × List Char), p = (s, []) → ∃ d', Enc u (R ++ p.2.map (·.2)) p.1 d' ∧ foldCase f d' = foldCase f d ∧
        (p.2.map (·.1) = p.2.mapIdx fun j _ => placeholder (R.length + j)) ∧ (∀ r ∈ p.2, ' ' ∈ r.2 ∧ '�' ∉ r.2) ∧
        (prev.any u.alphanumeric = true → s.head? ≠ some '�' → p.1.head? ≠ some '�') := by
      rintro _ rfl
      exact ⟨d, by simpa using h, rfl, rfl, by simp, fun _ h => h⟩
    cases fuel with
    | zero => exact stay _ rfl
    | succ fuel =>
      cases h with
      | nil => exact stay _ rfl
      | ph i x s d hi hs' =>
        have hskip := replaceNoun_skip hf (canonical := canonical) (key := key) R.length s (placeholder i) (fuel + 1) prev (placeholder_ne i) (by
          intro y z e hz
          apply Bool.eq_false_iff.2
          intro hmt
          obtain ⟨h1, h2, _⟩ := sub_ok _ hmt
          have hmz : '�' ∈ z := by
            obtain ⟨ds, e', _⟩ := placeholder_digits i
            rw [e'] at e
            have := congrArg List.getLast? e
            rw [List.getLast?_concat, List.getLast?_append] at this
            cases hl : z.getLast? with
            | none => exact absurd (List.getLast?_eq_none_iff.1 hl) hz
            | some w =>
              rw [hl, Option.some_or, Option.some.injEq] at this
              exact this ▸ List.mem_of_getLast? hl
          have hzs : ' ' ∉ z := fun h => cut_placeholder (c := ' ') ⟨by decide, by decide⟩ i (by rw [e]; simp [h])
          rw [List.take_append] at h1 h2
          rcases List.mem_append.1 h2 with h | h
          · exact hzs (List.mem_of_mem_take h)
          · have : z.length < key.length := by
              rcases Nat.lt_or_ge z.length key.length with hl | hl
              · exact hl
              · rw [Nat.sub_eq_zero_of_le hl] at h; simp at h
            rw [List.take_of_length_le (by omega)] at h1
            exact h1 (List.mem_append.2 (.inl hmz)))
        obtain ⟨fuel', prev', _, e⟩ := hskip
        obtain ⟨d', g1, g2, g3, g4, _⟩ := ih s.length (by
          have := (placeholder_digits i)
          obtain ⟨ds, e', _⟩ := this
          rw [← hn, e']; simp; omega) s rfl fuel' prev' R d hs'
        rw [e]
        refine ⟨x ++ d', .ph i x _ _ ?_ g1, by rw [foldCase_append, foldCase_append, g2], g3, g4, ?_⟩
        · rw [List.getElem?_append_left (List.getElem?_eq_some_iff.1 hi).1]; exact hi
        · intro _ h; exact absurd (by simp [placeholder]) h
      | char c s d hc ha hs' =>
        by_cases hlen : (c :: s).length < key.length
        · exact stay _ (replaceNoun_short _ _ _ _ hlen)
        · rw [replaceNoun, if_neg (by rw [List.length_take]; omega)]
          split
          · rename_i hmt
            simp only [Bool.and_eq_true, Bool.not_eq_true'] at hmt
            obtain ⟨⟨hmt, hp⟩, _⟩ := hmt
            obtain ⟨h1, h2, h3⟩ := sub_ok _ hmt
            generalize hsub : (c :: s).take key.length = sub at h1 h2 h3
            generalize hafter : (c :: s).drop key.length = after
            have hcs : c :: s = sub ++ after := by rw [← hsub, ← hafter, List.take_append_drop]
            obtain ⟨t, ht, htm⟩ := possessiveAt_prefix after
            generalize hpp : possessiveAt after = p at ht htm
            have hdrop : after.drop p.length = t := by rw [ht, List.drop_left]
            have hE : Enc u R (c :: s) (c :: d) := .char c s d hc ha hs'
            rw [hcs, ht, ← List.append_assoc] at hE
            obtain ⟨d', e', hE'⟩ := Enc.split (by simp [h1, htm]) hE
            have hlt : t.length < n := by
              rw [← hn, hcs, ht]
              have : 0 < sub.length := List.length_pos_iff.2 (List.ne_nil_of_mem h2)
              simp; omega
            obtain ⟨d'', g1, g2, g3, g4, _⟩ := ih t.length hlt t rfl fuel (some '�') (R ++ [canonical ++ p]) d' hE'.mono
            rw [List.length_append, List.length_singleton] at g1 g3 g4
            simp only [hdrop]
            refine ⟨canonical ++ p ++ d'', ?_, ?_, ?_, ?_, ?_⟩
            · refine .ph R.length _ _ _ ?_ ?_
              · rw [List.getElem?_append_right (by omega)]; simp
              · rw [List.map_cons]
                simpa only [List.append_assoc, List.singleton_append] using g1
            · rw [e', foldCase_append, foldCase_append, foldCase_append, foldCase_append, h3, g2]
            · rw [List.map_cons, List.mapIdx_cons, g3]
              simp only [Nat.add_zero, Nat.add_assoc, Nat.add_comm 1]
            · intro r hr
              rcases List.mem_cons.1 hr with rfl | hr
              · exact ⟨by simp [hs], by simp [hm, htm]⟩
              · exact g4 r hr
            · intro h; rw [hp] at h; exact absurd h (by simp)
          · obtain ⟨d', g1, g2, g3, g4, g5⟩ := ih s.length (by rw [← hn]; simp) s rfl fuel (some c) R d hs'
            refine ⟨c :: d', .char c _ _ hc (fun hca => g5 (by simpa using hca) (ha hca)) g1,
              by rw [foldCase_cons, foldCase_cons, g2], g3, g4, fun _ _ => by simpa using hc⟩

/-- All nouns are replaced. -/
theorem replaceNouns_enc : ∀ (ns : List (List Char × List Char)),
    (∀ p ∈ ns, foldCase f p.1 = foldCase f p.2 ∧ '�' ∉ p.1 ∧ ' ' ∈ p.1 ∧ f '’' = f '\'') → ∀ (R : List (List Char)) (s d : List Char), Enc u R s d →
      ∃ d', Enc u (R ++ (replaceNouns u ns R.length s).2.map (·.2)) (replaceNouns u ns R.length s).1 d' ∧
        foldCase f d' = foldCase f d ∧
        ((replaceNouns u ns R.length s).2.map (·.1) =
          (replaceNouns u ns R.length s).2.mapIdx fun j _ => placeholder (R.length + j)) ∧
        (∀ r ∈ (replaceNouns u ns R.length s).2, ' ' ∈ r.2 ∧ '�' ∉ r.2)
  | [], _, R, s, d, h => ⟨d, by simpa [replaceNouns] using h, rfl, rfl, by simp [replaceNouns]⟩
  | (canonical, key) :: ns, hns, R, s, d, h => by
    obtain ⟨h1, h2, h3, h4⟩ := hns (canonical, key) (by simp)
    rw [replaceNouns]
    obtain ⟨d', g1, g2, g3, g4, _⟩ := replaceNoun_enc hf h1 h2 h3 h4 _ s rfl (s.length + 1) none R d h
    generalize replaceNoun u canonical key (s.length + 1) none R.length s = a at *
    have := replaceNouns_enc ns (fun p hp => hns p (by simp [hp])) (R ++ a.2.map (·.2)) a.1 d' g1
    rw [List.length_append, List.length_map] at this
    obtain ⟨d'', k1, k2, k3, k4⟩ := this
    simp only
    generalize replaceNouns u ns (R.length + a.2.length) a.1 = b at *
    refine ⟨d'', by simpa using k1, k2.trans g2, ?_, ?_⟩
    · rw [List.map_append, List.mapIdx_append, g3, k3]
      simp only [Nat.add_assoc, Nat.add_comm, Nat.add_left_comm]
    · intro r hr
      rcases List.mem_append.1 hr with hr | hr
      · exact g4 r hr
      · exact k4 r hr

/-! ### Words with placeholders -/

omit hf in
theorem dropWhile_nil {p : Char → Bool} : ∀ {l : List Char}, l.dropWhile p = [] → ∀ c ∈ l, p c = true
  | [], _, _, h => by simp at h
  | x :: l, h, c, hc => by
    rw [List.dropWhile_cons] at h
    split at h
    · rename_i hx
      rcases List.mem_cons.1 hc with rfl | hc
      · exact hx
      · exact dropWhile_nil h c hc
    · exact absurd h (by simp)

/-- No proper noun has a placeholder in it. -/
theorem noNoun_marked {n : Nouns} (hn : NounsOk f n) {w : List Char} (hw : Marked w) (hm : '�' ∈ w) :
    findProperNoun u n w = none := by
  obtain ⟨a, i, b, rfl, ha⟩ := hw.first hm
  obtain ⟨ds, e, hne, hd, _⟩ := placeholder_digits i
  rw [e]
  clear hw hm e
  have hdm := digit_ne_mark hd
  generalize hW : a ++ ('�' :: ds ++ ['�']) ++ b = W
  unfold findProperNoun
  generalize hstop : (fun c => u.alphanumeric c || decide (c = '@')) = stop
  simp only
  have hds : ∀ c ∈ ds, stop c = true := fun c hc => by rw [← hstop]; simp [(hf.digit c (hd c hc)).1]
  have hmk : stop '�' = false := by rw [← hstop]; simp [hf.markClass]
  generalize hbare : W.dropWhile (fun c => !stop c) = bare
  have e1 : bare = (possessive bare).1 ++ (possessive bare).2 ∧ ∀ c ∈ (possessive bare).2, isAsciiDigit c = false := by
    unfold possessive
    split
    · rename_i h; exact ⟨stripSuffix?_iff.1 h, show ∀ c ∈ ['\'', 's'], _ by decide⟩
    · split
      · rename_i h; exact ⟨stripSuffix?_iff.1 h, show ∀ c ∈ ['’', 's'], _ by decide⟩
      · exact ⟨by simp, by simp⟩
  generalize possessive bare = cp at e1
  have e2 : cp.1 = (cp.1.reverse.dropWhile fun c => !u.alphanumeric c).reverse ++
      (cp.1.reverse.takeWhile fun c => !u.alphanumeric c).reverse := by
    rw [← List.reverse_append, List.takeWhile_append_dropWhile, List.reverse_reverse]
  have e3 : ∀ c ∈ (cp.1.reverse.takeWhile fun c => !u.alphanumeric c).reverse, isAsciiDigit c = false := by
    intro c hc
    have : ∀ (l : List Char), c ∈ l.takeWhile (fun c => !u.alphanumeric c) → u.alphanumeric c = false := by
      intro l
      induction l with
      | nil => simp
      | cons x l ih =>
        rw [List.takeWhile_cons]
        split
        · rename_i hx
          intro h
          rcases List.mem_cons.1 h with rfl | h
          · simpa using hx
          · exact ih h
        · simp
    have h1 := this _ (List.mem_reverse.1 hc)
    cases h2 : isAsciiDigit c with
    | false => rfl
    | true => rw [(hf.digit c h2).1] at h1; exact absurd h1 (by simp)
  generalize (cp.1.reverse.takeWhile fun c => !u.alphanumeric c).reverse = trail at e2 e3
  generalize (cp.1.reverse.dropWhile fun c => !u.alphanumeric c).reverse = core at *
  have hb : bare = core ++ (trail ++ cp.2) := by rw [e1.1, e2, List.append_assoc]
  by_cases hcm : '�' ∈ core
  · split
    · rfl
    split
    · rfl
    split
    · rename_i p hp
      have h1 : u.strLower p = u.strLower core := by simpa using List.find?_some hp
      have h2 := foldCase_of_lower hf h1
      exact absurd ((foldCase_mark hf p).1 (h2 ▸ (foldCase_mark hf core).2 hcm)) (hn.proper p (List.mem_of_find?_eq_some hp))
    · split
      · rename_i p hp
        have h1 : p.2 = u.strLower core := by simpa using List.find?_some hp
        have hmem := List.mem_of_find?_eq_some hp
        have h2 : foldCase f p.1 = foldCase f core := by rw [hn.key p hmem, h1, hf.lower]
        exact absurd ((foldCase_mark hf p.1).1 (h2 ▸ (foldCase_mark hf core).2 hcm)) (hn.builtin p hmem)
      · rfl
  · -- the digits are in the core, so the core is digits
    have hcore : ∀ c ∈ core, isAsciiDigit c = true := by
      have hcases : (∃ a', bare = a' ++ '�' :: (ds ++ '�' :: b) ∧ '�' ∉ a') ∨ bare = ds ++ '�' :: b := by
        rw [← hbare, ← hW]
        have e : a ++ ('�' :: ds ++ ['�']) ++ b = a ++ '�' :: (ds ++ '�' :: b) := by simp
        rw [e]
        by_cases hall : ∀ c ∈ a, (fun c => !stop c) c = true
        · right
          rw [List.dropWhile_append_of_pos hall, List.dropWhile_cons_of_pos (by simp [hmk])]
          obtain ⟨x, xs, rfl⟩ := List.exists_cons_of_ne_nil hne
          rw [List.cons_append, List.dropWhile_cons_of_neg (by simp [hds x (by simp)])]
        · left
          refine ⟨a.dropWhile fun c => !stop c, ?_, fun h => ha (List.dropWhile_subset _ h)⟩
          rw [List.dropWhile_append, if_neg]
          rw [List.isEmpty_iff]
          exact fun h => hall (dropWhile_nil h)
      rcases hcases with ⟨a', h1, h2⟩ | h1
      · rw [hb, List.append_eq_append_iff] at h1
        exfalso
        have hdig : ∀ q : List Char, trail ++ cp.2 = q ++ '�' :: (ds ++ '�' :: b) → False := by
          intro q hq
          obtain ⟨x, xs, rfl⟩ := List.exists_cons_of_ne_nil hne
          have hx : x ∈ trail ++ cp.2 := by rw [hq]; simp
          have hx' := hd x (by simp)
          rcases List.mem_append.1 hx with h | h
          · rw [e3 x h] at hx'; exact absurd hx' (by simp)
          · rw [e1.2 x h] at hx'; exact absurd hx' (by simp)
        rcases h1 with ⟨q, h3, h4⟩ | ⟨q, h3, h4⟩
        · exact hdig q h4
        · cases q with
          | nil => exact hdig [] (by simpa using h4.symm)
          | cons x q =>
            simp only [List.cons_append, List.cons.injEq] at h4
            exact hcm (by rw [h3, ← h4.1]; simp)
      · rw [hb, List.append_eq_append_iff] at h1
        rcases h1 with ⟨q, h3, h4⟩ | ⟨q, h3, h4⟩
        · intro c hc; exact hd c (by rw [h3]; simp [hc])
        · cases q with
          | nil => intro c hc; exact hd c (by rw [h3] at hc; simpa using hc)
          | cons x q =>
            simp only [List.cons_append, List.cons.injEq] at h4
            exact absurd (by rw [h3, ← h4.1]; simp) hcm
    rw [if_pos]
    right
    rw [List.any_eq_false]
    intro c hc
    simp [(hf.digit c (hcore c hc)).2]

end

end Hongdown
