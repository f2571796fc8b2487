import Verif.Spec.Undefined
import Verif.Lemmas.Str

/-!
# The scanners of the undefined reference check

Lemmas for `Verif.Props.Undefined`.
-/

namespace Hongdown.Model
open Spec

theorem close_split {s : List Char} (h : ']' ∈ s) :
    s = s.takeWhile (· ≠ ']') ++ ']' :: s.drop ((s.takeWhile (· ≠ ']')).length + 1) := by
  induction s with
  | nil => cases h
  | cons c s ih =>
    by_cases hc : c = ']'
    · subst hc; simp
    · have hm : ']' ∈ s := by
        rcases List.mem_cons.mp h with h | h
        · exact absurd h.symm hc
        · exact h
      have hp : (decide (c ≠ ']')) = true := by simp [hc]
      rw [List.takeWhile_cons, if_pos hp, List.length_cons, List.drop_succ_cons, List.cons_append, ← ih hm]

theorem close_take {n : List Char} (r : List Char) (h : ']' ∉ n) :
    (n ++ ']' :: r).takeWhile (· ≠ ']') = n := by
  rw [List.takeWhile_append_of_pos, List.takeWhile_cons, if_neg (by simp), List.append_nil]
  intro c hc
  simp only [ne_eq, decide_eq_true_eq]
  rintro rfl
  exact h hc

theorem close_not_mem (s : List Char) : ']' ∉ s.takeWhile (· ≠ ']') := by
  intro h
  have := List.all_eq_true.mp (List.all_takeWhile (l := s) (p := (· ≠ ']'))) _ h
  simp at this

theorem bracketed_iff (s n r : List Char) :
    bracketed s = some (n, r) ↔ s = '[' :: n ++ ']' :: r ∧ n ≠ [] ∧ ']' ∉ n := by
  constructor
  · intro h
    unfold bracketed at h
    split at h
    · rename_i s'
      dsimp only at h
      split at h
      · cases h
      · rename_i hn
        cases h
        have hm : ']' ∈ s' := by
          by_cases hm : ']' ∈ s'
          · exact hm
          · exact absurd (Or.inr (by simpa using hm)) hn
        exact ⟨congrArg ('[' :: ·) (close_split hm), fun e => hn (.inl e), close_not_mem _⟩
    · cases h
  · rintro ⟨rfl, hn, hm⟩
    rw [List.cons_append]
    show (if (n ++ ']' :: r).takeWhile (· ≠ ']') = [] ∨ (n ++ ']' :: r).contains ']' = false then none
      else some ((n ++ ']' :: r).takeWhile (· ≠ ']'),
        (n ++ ']' :: r).drop (((n ++ ']' :: r).takeWhile (· ≠ ']')).length + 1))) = _
    rw [close_take r hm, if_neg]
    · simp
    · simp [hn]

theorem abbreviationOf_iff (s n : List Char) :
    abbreviationOf s = some n ↔ ∃ r, s = '*' :: '[' :: n ++ ']' :: ':' :: r ∧ n ≠ [] ∧ ']' ∉ n := by
  constructor
  · intro h
    unfold abbreviationOf at h
    split at h
    · split at h
      · rename_i hb
        cases h
        obtain ⟨rfl, h1, h2⟩ := (bracketed_iff _ _ _).mp hb
        exact ⟨_, rfl, h1, h2⟩
      · cases h
    · cases h
  · rintro ⟨r, rfl, h1, h2⟩
    show (match bracketed ('[' :: n ++ ']' :: ':' :: r) with
      | some (name, ':' :: _) => some name
      | _ => none) = _
    rw [(bracketed_iff _ n (':' :: r)).mpr ⟨rfl, h1, h2⟩]
    rfl

theorem trimStart_split (s : List Char) : ∃ sp, s = sp ++ trimStart s ∧ ∀ c ∈ sp, isWs c = true :=
  ⟨s.takeWhile isWs, (List.takeWhile_append_dropWhile).symm,
    List.all_eq_true.mp (List.all_takeWhile)⟩

theorem trimStart_nil_iff (s : List Char) : trimStart s = [] ↔ ∀ c ∈ s, isWs c = true := by
  induction s with
  | nil => simp [trimStart]
  | cons c s ih =>
    by_cases hc : isWs c = true
    · rw [trimStart, List.dropWhile_cons, if_pos hc]
      simpa [hc, trimStart] using ih
    · rw [trimStart, List.dropWhile_cons, if_neg hc]
      simp [hc]

theorem trimStart_of_ws {sp : List Char} (c : Char) (s : List Char) (h : ∀ c ∈ sp, isWs c = true)
    (hc : isWs c = false) : trimStart (sp ++ c :: s) = c :: s := by
  rw [trimStart, List.dropWhile_append_of_pos h, List.dropWhile_cons, if_neg (by simp [hc])]

theorem definitionOf_iff (s n : List Char) :
    definitionOf s = some n ↔ ∃ sp r, s = sp ++ '[' :: n ++ ']' :: ':' :: r ∧
      (∀ c ∈ sp, isWs c = true) ∧ n ≠ [] ∧ ']' ∉ n ∧ ∃ c ∈ r, isWs c = false := by
  constructor
  · intro h
    unfold definitionOf at h
    split at h
    · rename_i hb
      split at h
      · cases h
      · rename_i r hr
        cases h
        obtain ⟨e, h1, h2⟩ := (bracketed_iff _ _ _).mp hb
        obtain ⟨sp, e', h3⟩ := trimStart_split s
        refine ⟨sp, r, ?_, h3, h1, h2, ?_⟩
        · rw [e', e]; simp
        · rw [trimStart_nil_iff] at hr
          simpa using hr
    · cases h
  · rintro ⟨sp, r, rfl, h3, h1, h2, c, hc, hw⟩
    have e : trimStart (sp ++ '[' :: n ++ ']' :: ':' :: r) = '[' :: n ++ ']' :: ':' :: r := by
      rw [List.append_assoc, List.cons_append]
      exact trimStart_of_ws _ _ h3 (by decide)
    rw [definitionOf, e, (bracketed_iff _ n (':' :: r)).mpr ⟨rfl, h1, h2⟩]
    show (if trimStart r = [] then none else some n) = _
    rw [if_neg]
    rw [trimStart_nil_iff]
    intro h
    rw [h c hc] at hw
    cases hw

theorem mem_definitions (lines : List (List Char)) (n : List Char) :
    n ∈ lines.filterMap definitionOf ↔ HasDefinition lines n := by
  rw [List.mem_filterMap]
  simp only [definitionOf_iff, HasDefinition]

theorem mem_abbreviations (lines : List (List Char)) (n : List Char) :
    n ∈ lines.filterMap abbreviationOf ↔ HasAbbreviation lines n := by
  rw [List.mem_filterMap]
  simp only [abbreviationOf_iff, HasAbbreviation]

/-! ### The first occurrence -/

theorem beforeFirst_none {pat : List Char} : ∀ {s : List Char}, beforeFirst pat s = none →
    ∀ a b, s ≠ a ++ pat ++ b
  | [], h, a, b, e => by
    unfold beforeFirst at h
    split at h
    · cases h
    · rename_i hn
      simp at e
      exact hn e.2.1
  | c :: s, h, a, b, e => by
    unfold beforeFirst at h
    split at h
    · cases h
    · rename_i hp
      cases a with
      | nil =>
        apply hp
        rw [e]
        simp
      | cons d a =>
        simp only [List.cons_append, List.cons.injEq] at e
        exact beforeFirst_none (Option.map_eq_none_iff.mp h) a b e.2

theorem beforeFirst_some {pat : List Char} : ∀ {s x : List Char}, beforeFirst pat s = some x →
    (∃ y, s = x ++ pat ++ y) ∧ ∀ a b, s = a ++ pat ++ b → x.length ≤ a.length
  | [], x, h => by
    unfold beforeFirst at h
    split at h
    · rename_i hp; cases h; subst hp; simp
    · cases h
  | c :: s, x, h => by
    unfold beforeFirst at h
    split at h
    · rename_i hp
      cases h
      obtain ⟨y, hy⟩ := List.isPrefixOf_iff_prefix.mp hp
      exact ⟨⟨y, by simp [hy]⟩, by simp⟩
    · rename_i hp
      obtain ⟨x', hx, rfl⟩ := Option.map_eq_some_iff.mp h
      obtain ⟨⟨y, hy⟩, h2⟩ := beforeFirst_some hx
      refine ⟨⟨y, by simp [hy]⟩, ?_⟩
      intro a b e
      cases a with
      | nil =>
        exfalso
        apply hp
        rw [e]
        simp
      | cons d a =>
        simp only [List.cons_append, List.cons.injEq] at e
        simpa using h2 a b e.2

theorem escapedInSource_iff (lines : List (List Char)) (number : Nat) (pat : List Char) :
    escapedInSource lines number pat = true ↔ EscapedOn lines number pat := by
  unfold escapedInSource
  split
  · rename_i h
    constructor
    · intro h; cases h
    · rintro ⟨line, _, _, h0, hl, _⟩
      have := List.getElem?_eq_some_iff.mp hl
      obtain ⟨hlt, _⟩ := this
      omega
  · rename_i h
    have hlt : number - 1 < lines.length := by omega
    have hline : lines[number - 1]? = some (lines.getD (number - 1) []) := by
      simp [List.getElem?_eq_getElem hlt]
    split
    · rename_i hb
      constructor
      · intro h; cases h
      · rintro ⟨line, bef, aft, _, hl, e, _⟩
        rw [hline] at hl
        cases hl
        exact absurd (by rw [e]; simp) (beforeFirst_none hb (bef ++ ['\\']) aft)
    · rename_i x hb
      obtain ⟨⟨y, hy⟩, hmin⟩ := beforeFirst_some hb
      have hex : EscapedOn lines number pat ↔ ∃ b, x = b ++ ['\\'] ∧ b.getLast? ≠ some '\\' := by
        constructor
        · rintro ⟨line, bef, aft, _, hl, e, hlast, hfirst⟩
          rw [hline] at hl
          cases hl
          have h1 := hfirst x y hy
          have h2 := hmin (bef ++ ['\\']) aft (by rw [e]; simp)
          have e2 : x ++ (pat ++ y) = (bef ++ ['\\']) ++ (pat ++ aft) := by
            rw [← List.append_assoc, ← hy, e]; simp
          have := (List.append_inj e2 (by simp at h2 ⊢; omega)).1
          exact ⟨bef, this, hlast⟩
        · rintro ⟨b, rfl, hlast⟩
          refine ⟨_, b, y, by omega, hline, ?_, hlast, ?_⟩
          · rw [hy]; simp
          · intro a c e
            simpa using hmin a c e
      rw [hex]
      split
      · rename_i r
        constructor
        · intro h; cases h
        · rintro ⟨b, rfl, hlast⟩
          rw [List.reverse_append] at r
          simp at r
          exfalso
          apply hlast
          simp [r]
      · rename_i t hno r
        constructor
        · intro _
          refine ⟨t.reverse, ?_, ?_⟩
          · rw [← List.reverse_reverse x, r]; simp
          · rw [List.getLast?_reverse]
            intro e
            cases t with
            | nil => cases e
            | cons d t => cases e; exact hno _ rfl
        · intro _; rfl
      · rename_i hno
        constructor
        · intro h; cases h
        · rintro ⟨b, rfl, _⟩
          exact absurd (by simp) (hno b.reverse)

/-! ### References -/

/-- A match as a reference. -/
def RefMatch.ref (m : RefMatch) : BracketRef := ⟨m.text, m.label⟩

theorem labelText_eq (m : RefMatch) : m.labelText = m.ref.name := by
  obtain ⟨f, t, l⟩ := m
  cases l with
  | none => rfl
  | some l => cases l <;> rfl

theorem refMatchAt_some {s : List Char} {m : RefMatch} {r : List Char}
    (h : refMatchAt s = some (m, r)) :
    m.ref.Ok ∧ m.full = m.ref.source ∧ s = m.ref.source ++ r ∧
      (m.ref.label = none → ∀ l r', ']' ∉ l → r ≠ '[' :: l ++ ']' :: r') := by
  unfold refMatchAt at h
  split at h
  · rename_i c s
    split at h
    · cases h
    · rename_i hc
      have h1 : c ≠ '[' := fun e => hc (.inl e)
      have h2 : c ≠ ']' := fun e => hc (.inr (.inl e))
      have hm : ']' ∈ s := by
        by_cases hm : ']' ∈ s
        · exact hm
        · exact absurd (.inr (.inr (by simpa using hm))) hc
      have hs := close_split hm
      have hx := close_not_mem s
      generalize s.takeWhile (· ≠ ']') = x at hs hx h
      dsimp only at h
      have hnot : ']' ∉ c :: x := by
        simp only [List.mem_cons, not_or]
        exact ⟨Ne.symm h2, hx⟩
      rw [List.length_cons] at h
      generalize s.drop (x.length + 1) = after at hs h
      subst hs
      split at h
      · rename_i s2
        split at h
        · rename_i hm2
          have hm2 : ']' ∈ s2 := by simpa using hm2
          cases h
          have hs2 := close_split hm2
          refine ⟨⟨by simp [RefMatch.ref], hnot, by simpa [RefMatch.ref] using h1, ?_⟩, ?_, ?_, ?_⟩
          · intro l hl
            simp only [RefMatch.ref, Option.mem_def, Option.some.injEq] at hl
            subst hl
            exact close_not_mem _
          · simp [RefMatch.ref, BracketRef.source]
          · simp only [RefMatch.ref, BracketRef.source, List.cons_append, List.append_assoc,
              List.nil_append]
            rw [← hs2]
          · intro e; cases e
        · rename_i hm2
          cases h
          refine ⟨⟨by simp [RefMatch.ref], hnot, by simpa [RefMatch.ref] using h1, nofun⟩, ?_, ?_, ?_⟩
          · simp [RefMatch.ref, BracketRef.source]
          · simp [RefMatch.ref, BracketRef.source]
          · rintro - l r' _ e
            cases e
            exact hm2 (by simp)
      · rename_i hno
        cases h
        refine ⟨⟨by simp [RefMatch.ref], hnot, by simpa [RefMatch.ref] using h1, nofun⟩, ?_, ?_, ?_⟩
        · simp [RefMatch.ref, BracketRef.source]
        · simp [RefMatch.ref, BracketRef.source]
        · rintro - l r' _ e
          exact hno _ e
  · cases h

theorem refMatchAt_none {s : List Char} (h : refMatchAt s = none) (m : BracketRef) (r : List Char)
    (hm : m.Ok) : s ≠ m.source ++ r := by
  rintro rfl
  obtain ⟨t, l⟩ := m
  obtain ⟨h1, h2, h3, _⟩ := hm
  cases t with
  | nil => exact h1 rfl
  | cons c t =>
    simp only [BracketRef.source, List.cons_append, List.append_assoc] at h
    simp only [refMatchAt] at h
    rw [if_neg] at h
    · split at h
      · split at h <;> cases h
      · cases h
    · simp only [List.mem_cons, not_or] at h2
      simp only [List.head?_cons, ne_eq, Option.some.injEq] at h3
      simp [h3, Ne.symm h2.1]

theorem refMatches_refsIn : ∀ (fuel : Nat) (s : List Char), s.length ≤ fuel →
    RefsIn s ((refMatches fuel s).map (·.ref)) ∧ ∀ m ∈ refMatches fuel s, m.full = m.ref.source ∧ m.ref.Ok
  | 0, [], _ => ⟨.nil, by simp [refMatches]⟩
  | _ + 1, [], _ => ⟨.nil, by simp [refMatches]⟩
  | fuel + 1, c :: s, h => by
    rw [refMatches]
    cases hr : refMatchAt (c :: s) with
    | none =>
      have ih := refMatches_refsIn fuel s (by simpa using h)
      exact ⟨.skip _ _ _ (refMatchAt_none hr) ih.1, ih.2⟩
    | some p =>
      obtain ⟨m, r⟩ := p
      obtain ⟨h1, h2, h3, h4⟩ := refMatchAt_some hr
      have hl : r.length ≤ fuel := by
        have := congrArg List.length h3
        simp only [List.length_append, BracketRef.source, List.length_cons] at this h
        omega
      have ih := refMatches_refsIn fuel r hl
      refine ⟨?_, ?_⟩
      · dsimp only
        rw [h3]
        exact .ref _ _ _ h1 h4 ih.1
      · intro m' hm'
        rcases List.mem_cons.mp hm' with rfl | hm'
        · exact ⟨h2, h1⟩
        · exact ih.2 m' hm'

theorem source_inj {m m' : BracketRef} {r r' : List Char} (hm : m.Ok) (hm' : m'.Ok)
    (hg : m.label = none → ∀ l r', ']' ∉ l → r ≠ '[' :: l ++ ']' :: r')
    (hg' : m'.label = none → ∀ l r, ']' ∉ l → r' ≠ '[' :: l ++ ']' :: r)
    (h : m.source ++ r = m'.source ++ r') : m = m' ∧ r = r' := by
  obtain ⟨t, l⟩ := m
  obtain ⟨t', l'⟩ := m'
  have cut : ∀ {a b x y : List Char}, ']' ∉ a → ']' ∉ b → a ++ ']' :: x = b ++ ']' :: y → a = b ∧ x = y := by
    intro a b x y ha hb e
    have := congrArg (List.takeWhile (· ≠ ']')) e
    rw [close_take _ ha, close_take _ hb] at this
    subst this
    exact ⟨rfl, by simpa using e⟩
  simp only [BracketRef.source, List.cons_append, List.append_assoc, List.nil_append,
    List.cons.injEq, true_and] at h
  obtain ⟨ht, h2⟩ := cut hm.inside hm'.inside h
  clear h
  dsimp only at ht
  subst ht
  cases l with
  | none =>
    cases l' with
    | none => simpa using h2
    | some l' =>
      exact absurd (by simpa using h2) (hg rfl l' r' (hm'.label l' rfl))
  | some l =>
    cases l' with
    | none =>
      exact absurd (by simpa using h2.symm) (hg' rfl l r (hm.label l rfl))
    | some l' =>
      simp only [List.cons_append, List.append_assoc, List.cons.injEq, true_and, List.nil_append] at h2
      obtain ⟨rfl, rfl⟩ := cut (hm.label l rfl) (hm'.label l' rfl) h2
      exact ⟨rfl, rfl⟩

theorem refsIn_unique {s : List Char} {ms : List BracketRef} (h : RefsIn s ms) :
    ∀ {ms' : List BracketRef}, RefsIn s ms' → ms = ms' := by
  induction h with
  | nil =>
    intro ms' h'
    generalize hs : ([] : List Char) = s at h'
    cases h' with
    | nil => rfl
    | skip => cases hs
    | ref => simp [BracketRef.source] at hs
  | skip c s ms hno _ ih =>
    intro ms' h'
    generalize hs : c :: s = s' at h'
    cases h' with
    | nil => cases hs
    | skip c' s' ms' _ h' => cases hs; exact ih h'
    | ref m r ms' hm _ _ => exact absurd hs (hno m r hm)
  | ref m r ms hm hg _ ih =>
    intro ms' h'
    generalize hs : m.source ++ r = s' at h'
    cases h' with
    | nil => simp [BracketRef.source] at hs
    | skip c' s' ms' hno h' => exact absurd hs.symm (hno m r hm)
    | ref m' r' ms' hm' hg' h' =>
      obtain ⟨rfl, rfl⟩ := source_inj hm hm' hg hg' hs
      rw [ih h']

theorem reportsMatch_iff (lines : List (List Char)) (number : Nat) (m : RefMatch)
    (hf : m.full = m.ref.source) (ho : m.ref.Ok) :
    reportsMatch lines (lines.filterMap abbreviationOf) (lines.filterMap definitionOf) number m = true ↔
      Unresolved lines number m.ref := by
  have hne : m.ref.name ≠ [] := by
    obtain ⟨f, t, l⟩ := m
    have := ho.nonempty
    cases l with
    | none => exact this
    | some l => cases l with
      | nil => exact this
      | cons c l => exact nofun
  have hesc := escapedInSource_iff lines number m.full
  rw [hf] at hesc
  have hd := mem_definitions lines m.ref.name
  have ha := mem_abbreviations lines m.ref.name
  unfold reportsMatch
  rw [labelText_eq, hf]
  simp only [Bool.and_eq_true, decide_eq_true_eq, Bool.not_eq_true', List.contains_eq_mem,
    decide_eq_false_iff_not, hd, ha]
  rw [← Bool.not_eq_true, hesc]
  constructor
  · rintro ⟨⟨⟨⟨⟨_, h1⟩, h2⟩, h3⟩, h4⟩, h5⟩
    exact ⟨h1, h2, h4, h3, h5⟩
  · rintro ⟨h1, h2, h4, h3, h5⟩
    exact ⟨⟨⟨⟨⟨hne, h1⟩, h2⟩, h3⟩, h4⟩, h5⟩

theorem reports_append {lines : List (List Char)} {ms ms' : List (Nat × BracketRef)}
    {ws ws' : List Warning} (h : Reports lines ms ws) (h' : Reports lines ms' ws') :
    Reports lines (ms ++ ms') (ws ++ ws') := by
  induction h with
  | nil => exact h'
  | warn _ _ _ _ hu _ ih => exact .warn _ _ _ _ hu ih
  | pass _ _ _ _ hu _ ih => exact .pass _ _ _ _ hu ih

theorem reports_unique {lines : List (List Char)} {ms : List (Nat × BracketRef)}
    {ws : List Warning} (h : Reports lines ms ws) : ∀ {ws' : List Warning}, Reports lines ms ws' → ws = ws' := by
  induction h with
  | nil => intro ws' h'; cases h'; rfl
  | warn _ _ _ _ hu _ ih =>
    intro ws' h'
    cases h' with
    | warn _ _ _ _ _ h' => rw [ih h']
    | pass _ _ _ _ hn => exact absurd hu hn
  | pass _ _ _ _ hu _ ih =>
    intro ws' h'
    cases h' with
    | warn _ _ _ _ hn => exact absurd hn hu
    | pass _ _ _ _ _ h' => exact ih h'

theorem reports_filter (lines : List (List Char)) (number : Nat) : ∀ ms : List RefMatch,
    (∀ m ∈ ms, m.full = m.ref.source ∧ m.ref.Ok) →
    Reports lines ((ms.map (·.ref)).map (number, ·))
      ((ms.filter (reportsMatch lines (lines.filterMap abbreviationOf)
        (lines.filterMap definitionOf) number)).map fun m => ⟨number, undefinedMessage m.labelText⟩)
  | [], _ => .nil
  | m :: ms, h => by
    have hm := h m (by simp)
    have ih := reports_filter lines number ms fun m' hm' => h m' (by simp [hm'])
    have hi := reportsMatch_iff lines number m hm.1 hm.2
    rw [List.filter_cons]
    split
    · rename_i ht
      rw [List.map_cons, List.map_cons, List.map_cons, labelText_eq]
      exact .warn _ _ _ _ (hi.mp ht) ih
    · rename_i ht
      exact .pass _ _ _ _ (fun hu => ht (hi.mpr hu)) ih

theorem refsOf_append {ts ts' : List (Nat × List Char)} {ms ms' : List (Nat × BracketRef)}
    (h : RefsOf ts ms) (h' : RefsOf ts' ms') : RefsOf (ts ++ ts') (ms ++ ms') := by
  induction h with
  | nil => exact h'
  | cons n t ts ms rest h1 _ ih =>
    rw [List.append_assoc]
    exact .cons _ _ _ _ _ h1 ih

theorem refsOf_unique {ts : List (Nat × List Char)} {ms : List (Nat × BracketRef)}
    (h : RefsOf ts ms) : ∀ {ms' : List (Nat × BracketRef)}, RefsOf ts ms' → ms = ms' := by
  induction h with
  | nil => intro ms' h'; cases h'; rfl
  | cons n t ts ms rest h1 _ ih =>
    intro ms' h'
    cases h' with
    | cons _ _ _ ms2 rest2 h2 h3 => rw [refsIn_unique h1 h2, ih h3]

/-- What is reported for a node. -/
def Walked (lines : List (List Char)) (ts : List (Nat × List Char)) (ws : List Warning) : Prop :=
  ∃ ms, RefsOf ts ms ∧ Reports lines ms ws

theorem Walked.append {lines : List (List Char)} {ts ts' : List (Nat × List Char)}
    {ws ws' : List Warning} (h : Walked lines ts ws) (h' : Walked lines ts' ws') :
    Walked lines (ts ++ ts') (ws ++ ws') := by
  obtain ⟨ms, h1, h2⟩ := h
  obtain ⟨ms', h1', h2'⟩ := h'
  exact ⟨ms ++ ms', refsOf_append h1 h1', reports_append h2 h2'⟩

theorem walked_nil (lines : List (List Char)) : Walked lines [] [] := ⟨[], .nil, .nil⟩

theorem walked_text (lines : List (List Char)) (number : Nat) (t : List Char) :
    Walked lines [(number, t)]
      (((refMatches t.length t).filter (reportsMatch lines (lines.filterMap abbreviationOf)
        (lines.filterMap definitionOf) number)).map fun m => ⟨number, undefinedMessage m.labelText⟩) := by
  obtain ⟨h1, h2⟩ := refMatches_refsIn t.length t (Nat.le_refl _)
  refine ⟨_, .cons _ _ _ _ _ h1 .nil, ?_⟩
  rw [List.append_nil]
  exact reports_filter lines number _ h2

mutual
theorem walkRefs_walked (lines : List (List Char)) : ∀ n : Node,
    Walked lines (proseOf n) (walkRefs lines (lines.filterMap abbreviationOf)
      (lines.filterMap definitionOf) n)
  | .mk v p cs => by
    have ih := walkRefsList_walked lines cs
    cases v
    case text t =>
      rw [proseOf, walkRefs]
      exact (walked_text lines p.startLine t).append ih
    all_goals first
      | (rw [proseOf, walkRefs]; exact walked_nil lines)
      | (simpa only [proseOf, walkRefs] using ih)

theorem walkRefsList_walked (lines : List (List Char)) : ∀ ns : List Node,
    Walked lines (proseOfList ns) (walkRefsList lines (lines.filterMap abbreviationOf)
      (lines.filterMap definitionOf) ns)
  | [] => by rw [proseOfList, walkRefsList]; exact walked_nil lines
  | n :: ns => by
    rw [proseOfList, walkRefsList]
    exact (walkRefs_walked lines n).append (walkRefsList_walked lines ns)
end

end Hongdown.Model
