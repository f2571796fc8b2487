import Verif.Lemmas.NestedValid

/-!
# The lines of nested lists
-/

namespace Hongdown.Model
open Spec

/-- Spaces before a line. -/
def indentOf (l : List Char) : Nat := (l.takeWhile (· = ' ')).length

theorem readDefinition_head {l : List Char} {x : List Char × List Char × List Char} (h : readDefinition l = some x) : l.head? = some '[' := by
  unfold readDefinition at h
  split at h
  · rfl
  · cases h

theorem lineKind_other_of {l : List Char} (h1 : l.all blankChar = false) (h2 : isRule l = false) (h3 : ¬ TextLine l)
    (h4 : l.head? ≠ some '#' ∧ l.head? ≠ some '[') (h5 : ∀ c ∈ (l.dropWhile (· = ' ')).head?, c ≠ '`' ∧ c ≠ '~') : lineKind l = .other := by
  have ha : atxLine l = none := by
    unfold atxLine
    have : l.takeWhile (fun c => decide (c = '#')) = [] := by
      cases l with
      | nil => rfl
      | cons c l => rw [List.takeWhile_cons_of_neg]; simpa using h4.1
    simp only [this]
    simp
  have hf : readOpening l = none := by
    unfold readOpening
    simp only
    split
    · rfl
    · split
      · rfl
      · next c r hc =>
        have := h5 c (by rw [hc]; rfl)
        rw [if_neg]
        rintro ⟨(h | h), _⟩
        · exact this.1 h.1
        · exact this.2 h
  have hd : definitionLine l = none := by
    unfold definitionLine
    split
    · next hd => exact absurd (readDefinition_head hd) h4.2
    · rfl
  rw [lineKind, if_neg (by rw [h1]; simp), if_neg (by rw [h2]; simp), if_neg h3, ha]
  simp only [hf, hd]

theorem underline_of_letter {l : List Char} {c : Char} (hc : c ∈ l) (h : letterLike c = true) : underline l = none := by
  have hm := letter_not_marker h
  unfold underline
  rw [if_neg, if_neg]
  · rintro ⟨_, h⟩
    rw [List.all_eq_true] at h
    have := h c hc
    simp only [decide_eq_true_eq] at this
    rw [this] at hm; exact hm (by decide)
  · rintro ⟨_, h⟩
    rw [List.all_eq_true] at h
    have := h c hc
    simp only [decide_eq_true_eq] at this
    rw [this] at hm; exact hm (by decide)

/-- What an item starts with, as it is read. -/
def treeStart (o : Options) (type : ListType) (depth k : Nat) : ItemStart :=
  match type with
  | .bullet => ⟨o.leadingSpaces, none, o.unorderedMarker, 4⟩
  | .ordered => ⟨0, some k, if depth % 2 = 1 then o.oddLevelMarker else o.evenLevelMarker, 4⟩

theorem repr_small : ∀ k < 100, (Nat.repr k).toList.length ≤ 2 ∧ (Nat.repr k).toList ≠ [] ∧ decimal (Nat.repr k).toList = some k ∧
    startsBlock ((Nat.repr k).toList ++ ['.']) = true ∧ startsBlock ((Nat.repr k).toList ++ [')']) = true ∧
    ∀ c ∈ (Nat.repr k).toList, c ≠ ' ' ∧ c ≠ '#' ∧ c ≠ '`' ∧ c ≠ '~' ∧ c ≠ '\n' ∧ c ≠ '\r' ∧ c ≠ '\x00' ∧ blankChar c = false := by
  decide +kernel

theorem repr_bracket : ∀ k < 100, ∀ c ∈ (Nat.repr k).toList, c ≠ '[' := by decide +kernel

/-- The first word of a line of text. -/
theorem coreWord_first {a rest : List Char} (h : TextLine (a ++ rest)) (ha : ' ' ∉ a) (hr : rest = [] ∨ rest.head? = some ' ') : CoreWord a := by
  apply h
  rcases hr with rfl | hr
  · rw [List.append_nil, splitOn_of_not_mem ha]; simp
  · cases rest with
    | nil => cases hr
    | cons c r =>
      simp only [List.head?_cons, Option.some.injEq] at hr
      subst hr
      rw [splitOn_append_sep ha]
      simp

theorem delim_or {o : Options} (ho : NestedOptions o) (depth : Nat) :
    (if depth % 2 = 1 then o.oddLevelMarker else o.evenLevelMarker) = '.' ∨
    (if depth % 2 = 1 then o.oddLevelMarker else o.evenLevelMarker) = ')' := by
  split
  · exact ho.oddMarker
  · exact ho.evenMarker

theorem treeMarker_length {o : Options} (ho : NestedOptions o) (type : ListType) (depth : Nat) {k : Nat} (hk : type = .bullet ∨ k < 100) :
    (treeMarker o type depth k).length = 4 := by
  cases type with
  | bullet => simp [treeMarker, spaces]; have := ho.bullet; omega
  | ordered =>
    have := (repr_small k (hk.resolve_left (by simp))).1
    simp only [treeMarker, spaces, List.length_append, List.length_replicate, List.length_singleton]
    omega

theorem treeMarker_char {o : Options} (ho : NestedOptions o) (type : ListType) (depth : Nat) {k : Nat} (hk : type = .bullet ∨ k < 100) :
    ∀ c ∈ treeMarker o type depth k, c ≠ '\n' ∧ c ≠ '\r' ∧ c ≠ '\x00' ∧ c ≠ '#' ∧ c ≠ '`' ∧ c ≠ '~' := by
  intro c hc
  have hs : ∀ n, c ∈ spaces n → c = ' ' := fun n h => List.eq_of_mem_replicate h
  cases type with
  | bullet =>
    simp only [treeMarker, List.mem_append, List.mem_singleton] at hc
    rcases hc with (h | h) | h
    · rw [hs _ h]; decide
    · rw [h]; rcases ho.unorderedMarker with e | e | e <;> rw [e] <;> decide
    · rw [hs _ h]; decide
  | ordered =>
    simp only [treeMarker, List.mem_append, List.mem_singleton] at hc
    rcases hc with (h | h) | h
    · have := (repr_small k (hk.resolve_left (by simp))).2.2.2.2.2 c h
      exact ⟨this.2.2.2.2.1, this.2.2.2.2.2.1, this.2.2.2.2.2.2.1, this.2.1, this.2.2.1, this.2.2.2.1⟩
    · rw [h]; rcases delim_or ho depth with e | e <;> rw [e] <;> decide
    · rw [hs _ h]; decide

theorem treeMarker_bracket {o : Options} (ho : NestedOptions o) (type : ListType) (depth : Nat) {k : Nat} (hk : type = .bullet ∨ k < 100) :
    ∀ c ∈ treeMarker o type depth k, c ≠ '[' := by
  intro c hc
  have hs : ∀ n, c ∈ spaces n → c = ' ' := fun n h => List.eq_of_mem_replicate h
  cases type with
  | bullet =>
    simp only [treeMarker, List.mem_append, List.mem_singleton] at hc
    rcases hc with (h | h) | h
    · rw [hs _ h]; decide
    · rw [h]; rcases ho.unorderedMarker with e | e | e <;> rw [e] <;> decide
    · rw [hs _ h]; decide
  | ordered =>
    simp only [treeMarker, List.mem_append, List.mem_singleton] at hc
    rcases hc with (h | h) | h
    · exact repr_bracket k (hk.resolve_left (by simp)) c h
    · rw [h]; rcases delim_or ho depth with e | e <;> rw [e] <;> decide
    · rw [hs _ h]; decide

theorem treeMarker_notText {o : Options} (ho : NestedOptions o) (type : ListType) (depth : Nat) {k : Nat} (hk : type = .bullet ∨ k < 100)
    (x : List Char) : ¬ TextLine (treeMarker o type depth k ++ x) := by
  intro h
  cases type with
  | bullet =>
    obtain ⟨j, hj⟩ : ∃ j, o.trailingSpaces = j + 1 := ⟨o.trailingSpaces - 1, by have := ho.trailing; omega⟩
    cases hl : o.leadingSpaces with
    | succ n =>
      have := textLine_head h ' ' (by simp [treeMarker, hl, spaces, List.replicate_succ])
      exact absurd this (by decide)
    | zero =>
      have e : treeMarker o .bullet depth k ++ x = [o.unorderedMarker] ++ (' ' :: (spaces j ++ x)) := by
        simp [treeMarker, hl, hj, spaces, List.replicate_succ]
      rw [e] at h
      have := coreWord_first h (by rcases ho.unorderedMarker with e | e | e <;> rw [e] <;> decide) (.inr rfl)
      revert this
      rcases ho.unorderedMarker with e | e | e <;> rw [e] <;> decide
  | ordered =>
    obtain ⟨_, h2, _, h4, h5, h6⟩ := repr_small k (hk.resolve_left (by simp))
    obtain ⟨j, hj⟩ : ∃ j, max (4 - ((Nat.repr k).toList.length + 1)) 1 = j + 1 := ⟨max (4 - ((Nat.repr k).toList.length + 1)) 1 - 1, by omega⟩
    have e : treeMarker o .ordered depth k ++ x =
        ((Nat.repr k).toList ++ [if depth % 2 = 1 then o.oddLevelMarker else o.evenLevelMarker]) ++ (' ' :: (spaces j ++ x)) := by
      simp only [treeMarker, hj]
      simp [spaces, List.replicate_succ]
    rw [e] at h
    have hw := coreWord_first h (by
      simp only [List.mem_append, List.mem_singleton, not_or]
      refine ⟨fun hh => (h6 _ hh).1 rfl, ?_⟩
      rcases delim_or ho depth with e | e <;> rw [e] <;> decide) (.inr rfl)
    have := hw.2.2.1.resolve_right (by
      intro hb
      cases hr : (Nat.repr k).toList with
      | nil => exact h2 hr
      | cons c r =>
        rw [hr] at hb
        simp only [List.cons_append, List.head?_cons, Option.some.injEq] at hb
        exact repr_bracket k (hk.resolve_left (by simp)) c (by rw [hr]; simp) hb)
    rcases delim_or ho depth with e | e
    · rw [e, h4] at this; cases this
    · rw [e, h5] at this; cases this

theorem treeMarker_visible {o : Options} (ho : NestedOptions o) (type : ListType) (depth k : Nat) :
    ∃ c ∈ treeMarker o type depth k, c ≠ ' ' := by
  cases type with
  | bullet =>
    refine ⟨o.unorderedMarker, by simp [treeMarker], ?_⟩
    rcases ho.unorderedMarker with e | e | e <;> rw [e] <;> decide
  | ordered =>
    refine ⟨if depth % 2 = 1 then o.oddLevelMarker else o.evenLevelMarker, by simp [treeMarker], ?_⟩
    rcases delim_or ho depth with e | e <;> rw [e] <;> decide

theorem treeMarker_head {o : Options} (ho : NestedOptions o) (type : ListType) (depth : Nat) {k : Nat} (hk : type = .bullet ∨ k < 100)
    (x : List Char) (hx : TextLine x) : ((treeMarker o type depth k ++ x).head? ≠ some '#' ∧ (treeMarker o type depth k ++ x).head? ≠ some '[') ∧
      ∀ c ∈ ((treeMarker o type depth k ++ x).dropWhile (· = ' ')).head?, c ≠ '`' ∧ c ≠ '~' := by
  have hch := treeMarker_char ho type depth hk
  have hlen := treeMarker_length ho type depth hk
  refine ⟨?_, ?_⟩
  · cases hm : treeMarker o type depth k with
    | nil => rw [hm] at hlen; cases hlen
    | cons c r =>
      simp only [List.cons_append, List.head?_cons, ne_eq, Option.some.injEq]
      exact ⟨(hch c (by rw [hm]; simp)).2.2.2.1, treeMarker_bracket ho type depth hk c (by rw [hm]; simp)⟩
  · have hne : ((treeMarker o type depth k).dropWhile (· = ' ')).isEmpty = false := by
      obtain ⟨c, hc, hcs⟩ := treeMarker_visible ho type depth k
      cases hd : (treeMarker o type depth k).dropWhile (· = ' ') with
      | cons _ _ => rfl
      | nil =>
        have hall := List.all_takeWhile (p := fun c : Char => decide (c = ' ')) (l := treeMarker o type depth k)
        have hsplit := List.takeWhile_append_dropWhile (p := fun c : Char => decide (c = ' ')) (l := treeMarker o type depth k)
        rw [hd, List.append_nil] at hsplit
        rw [hsplit, List.all_eq_true] at hall
        exact absurd (by simpa using hall c hc) hcs
    intro c hc
    rw [List.dropWhile_append, hne] at hc
    simp only [Bool.false_eq_true, if_false] at hc
    have hm : c ∈ (treeMarker o type depth k).dropWhile (· = ' ') := by
      cases hd : (treeMarker o type depth k).dropWhile (· = ' ') with
      | nil => rw [hd] at hne; cases hne
      | cons d r =>
        rw [hd] at hc
        simp only [List.cons_append, List.head?_cons, Option.mem_some] at hc
        simp [hc]
    exact (hch c ((List.dropWhile_suffix _).subset hm)).2.2.2.2

theorem itemLine_marker {o : Options} (ho : NestedOptions o) (type : ListType) (depth : Nat) {k : Nat} (hk : type = .bullet ∨ k < 100)
    {x : List Char} (hx : TextLine x) : ItemLine (treeStart o type depth k) (treeMarker o type depth k ++ x) := by
  obtain ⟨c, hc, hl⟩ := textLine_letter hx
  have hm : c ∈ treeMarker o type depth k ++ x := by simp [hc]
  have hnb := letter_not_blank hl
  have hrule : isRule (treeMarker o type depth k ++ x) = false :=
    not_rule_line hm hnb (fun e => letter_not_marker hl (by simp only [List.mem_cons] at e ⊢; rcases e with e | e | e | e <;> simp [e] at *))
  have hh := treeMarker_head ho type depth hk x hx
  refine ⟨?_, lineKind_other_of (not_blank_line hm hnb) hrule (treeMarker_notText ho type depth hk x) hh.1 hh.2, underline_of_letter hm hl⟩
  have hx0 := textLine_ne_nil hx
  have hxs : x.head? ≠ some ' ' := fun e => absurd (textLine_head hx _ e) (by decide)
  have hread : readItem (treeMarker o type depth k ++ x) = some (treeStart o type depth k) := by
    cases type with
    | bullet =>
      have := readItem_bullet 0 o.leadingSpaces o.trailingSpaces o.unorderedMarker x ho.unorderedMarker ho.trailing
        (by have := ho.bullet; omega) hx0 hxs
      have e : treeMarker o .bullet depth k ++ x =
        List.replicate 0 ' ' ++ (List.replicate o.leadingSpaces ' ' ++ o.unorderedMarker :: List.replicate o.trailingSpaces ' ') ++ x := by
        simp [treeMarker, spaces]
      rw [e, this, treeStart]
      simp [ho.bullet]
    | ordered =>
      obtain ⟨h2, h1, hd, _⟩ := repr_small k (hk.resolve_left (by simp))
      have := readItem_ordered 0 (max (4 - ((Nat.repr k).toList.length + 1)) 1) k (Nat.repr k).toList
        (if depth % 2 = 1 then o.oddLevelMarker else o.evenLevelMarker) x hd (by omega) (delim_or ho depth) (by omega) (by omega) hx0 hxs
      have e : treeMarker o .ordered depth k ++ x =
        List.replicate 0 ' ' ++ ((Nat.repr k).toList ++ (if depth % 2 = 1 then o.oddLevelMarker else o.evenLevelMarker) ::
          List.replicate (max (4 - ((Nat.repr k).toList.length + 1)) 1) ' ') ++ x := by
        simp [treeMarker, spaces]
      rw [e, this, treeStart]
      simp only [Option.some.injEq, ItemStart.mk.injEq, true_and]
      omega
  have hcol : (treeStart o type depth k).column ≤ 3 := by
    cases type with
    | bullet => simp only [treeStart]; have := ho.bullet; omega
    | ordered => simp [treeStart]
  have hcont : (treeStart o type depth k).content = 4 := by cases type <;> rfl
  have hdrop : (treeMarker o type depth k ++ x).drop 4 = x := by
    rw [← treeMarker_length ho type depth hk, List.drop_left]
  unfold itemStart
  rw [hread]
  simp only [hcont, hdrop]
  rw [if_neg]
  simp only [not_or]
  refine ⟨by rw [hrule]; simp, by omega, ?_⟩
  unfold blankLine
  rw [not_blank_line hc hnb]; simp

/-! ### Lines that do not start items -/

theorem contentColumn_none {col : Nat} {rest : List Char} (h0 : rest ≠ []) (h : rest.head? ≠ some ' ') : contentColumn col rest = none := by
  unfold contentColumn
  have : rest.takeWhile (fun c => decide (c = ' ')) = [] := by
    cases rest with
    | nil => rfl
    | cons c r => rw [List.takeWhile_cons_of_neg]; simpa using h
  simp [this, h0]

theorem readItem_text {l : List Char} (h : TextLine l) : readItem l = none := by
  have hn : l.takeWhile (fun c => decide (c = ' ')) = [] := by
    cases hl : l with
    | nil => rfl
    | cons c r =>
      rw [List.takeWhile_cons_of_neg]
      have := textLine_head h c (by rw [hl]; rfl)
      have := rawChar_ne this ' ' (by decide)
      simpa using this
  unfold readItem
  simp only [hn, List.length_nil, List.drop_zero, Nat.zero_add]
  have hsplit : l = l.takeWhile (fun c => decide (48 ≤ c.toNat) && decide (c.toNat ≤ 57)) ++
      l.drop (l.takeWhile (fun c => decide (48 ≤ c.toNat) && decide (c.toNat ≤ 57))).length := by
    have := List.prefix_iff_eq_append.1 (List.takeWhile_prefix (l := l) (fun c => decide (48 ≤ c.toNat) && decide (c.toNat ≤ 57)))
    exact this.symm
  have hdig : ∀ c ∈ l.takeWhile (fun c => decide (48 ≤ c.toNat) && decide (c.toNat ≤ 57)), c.isDigit = true := by
    have := List.all_takeWhile (p := fun c : Char => decide (48 ≤ c.toNat) && decide (c.toNat ≤ 57)) (l := l)
    rw [List.all_eq_true] at this
    intro c hc
    have := this c hc
    have h1 : c.val.toNat = c.toNat := rfl
    simp only [Bool.and_eq_true, decide_eq_true_eq] at this
    have h0 : ('0' : Char).val.toNat = 48 := rfl
    have h9 : ('9' : Char).val.toNat = 57 := rfl
    simp only [Char.isDigit, Bool.and_eq_true, decide_eq_true_eq, ge_iff_le, UInt32.le_iff_toNat_le]
    omega
  generalize l.takeWhile (fun c => decide (48 ≤ c.toNat) && decide (c.toNat ≤ 57)) = ds at hsplit hdig
  have hnod : ' ' ∉ ds := fun e => absurd (hdig _ e) (by decide)
  split
  · rfl
  · next c rest hc =>
    rw [hc] at hsplit
    have hcol : ∀ col, (c = '-' ∨ c = '*' ∨ c = '+') ∧ ds = [] ∨ (c = '.' ∨ c = ')') ∧ ds ≠ [] ∧ ds.length ≤ 9 → contentColumn col rest = none := by
      intro col hor
      by_cases hr : rest = [] ∨ rest.head? = some ' '
      · exfalso
        have hcs : c ≠ ' ' := by
          rintro rfl
          rcases hor with ⟨h, _⟩ | ⟨h, _⟩ <;> revert h <;> decide
        have hw : CoreWord (ds ++ [c]) := by
          refine coreWord_first (rest := rest) ?_ (by simp [hnod, Ne.symm hcs]) hr
          have e : (ds ++ [c]) ++ rest = l := by rw [hsplit]; simp
          rw [e]; exact h
        rcases hor with ⟨hc', rfl⟩ | ⟨hc', hd0, hd9⟩
        · revert hw
          rcases hc' with rfl | rfl | rfl <;> decide
        · obtain ⟨d, ds', rfl⟩ := List.exists_cons_of_ne_nil hd0
          have := hw.2.2.1.resolve_right (by
            intro hb
            simp only [List.cons_append, List.head?_cons, Option.some.injEq] at hb
            exact absurd (hdig d (by simp)) (by rw [hb]; decide))
          rw [List.cons_append, startsBlock] at this
          have htw : (d :: (ds' ++ [c])).takeWhile Char.isDigit = d :: ds' := by
            have : d :: (ds' ++ [c]) = (d :: ds') ++ [c] := rfl
            rw [this, List.takeWhile_append_of_pos hdig]
            rw [List.takeWhile_cons_of_neg]
            · simp
            · rcases hc' with rfl | rfl <;> decide
          simp only [htw] at this
          have hdrop : (d :: (ds' ++ [c])).drop (d :: ds').length = [c] := by
            have : d :: (ds' ++ [c]) = (d :: ds') ++ [c] := rfl
            rw [this, List.drop_left]
          rw [hdrop] at this
          have hm : markerEnd ([c].drop 1) = true := rfl
          have hlen : 1 ≤ (d :: ds').length := by simp
          rcases hc' with rfl | rfl <;> simp [hm, hd9, markerEnd] at this <;> simp at hd9 <;> omega
      · simp only [not_or] at hr
        exact contentColumn_none hr.1 hr.2
    split
    · next hd =>
      split
      · next hm => rw [hcol _ (.inl ⟨hm, hd⟩)]; rfl
      · rfl
    · next hd =>
      split
      · next hm => rw [hcol _ (.inr ⟨hm.2, hd, hm.1⟩)]; rfl
      · rfl

theorem readItem_of_head {l : List Char} {c : Char} (h : l.head? = some c) (hc : c = '#' ∨ c = '`' ∨ c = '~' ∨ c = '[') : readItem l = none := by
  cases l with
  | nil => cases h
  | cons d l =>
    simp only [List.head?_cons, Option.some.injEq] at h
    subst h
    unfold readItem
    rcases hc with rfl | rfl | rfl | rfl <;> simp

/-- Lines that other blocks start with do not start items, and are hardly indented. -/
theorem blockStart_line {l : List Char} (h : BlockStart l) : itemStart l = none ∧ blankLine l = false ∧ indentOf l < 4 := by
  have none_of : readItem l = none → itemStart l = none := fun e => by unfold itemStart; rw [e]
  have hnb : blankLine l = false := by
    cases hb : blankLine l with
    | false => rfl
    | true =>
      have : lineKind l = .blank := by rw [lineKind, if_pos (show l.all blankChar = true from hb)]
      exact absurd rfl (h _ this).1
  have head : ∀ c, c ≠ ' ' → l.head? = some c → indentOf l < 4 := by
    intro c hc e
    cases l with
    | nil => cases e
    | cons d l =>
      simp only [List.head?_cons, Option.some.injEq] at e
      subst e
      rw [indentOf, List.takeWhile_cons_of_neg (by simpa using hc)]
      simp
  cases hk : lineKind l with
  | blank => exact absurd rfl (h _ hk).1
  | other => exact absurd rfl (h _ hk).2
  | rule =>
    have hr : isRule l = true := by
      unfold lineKind at hk
      split at hk
      · cases hk
      · split at hk
        · assumption
        · split at hk
          · cases hk
          · split at hk
            · split at hk <;> cases hk
            · split at hk
              · split at hk <;> cases hk
              · split at hk <;> cases hk
    refine ⟨?_, hnb, ?_⟩
    · unfold itemStart
      split
      · rfl
      · rw [if_pos (.inl hr)]
    · unfold isRule at hr
      rw [Bool.and_eq_true] at hr
      have := of_decide_eq_true hr.1
      unfold indentOf
      omega
  | text =>
    have ht := lineKind_textLine hk
    refine ⟨none_of (readItem_text ht), hnb, ?_⟩
    obtain ⟨c, t, rfl⟩ := List.exists_cons_of_ne_nil (textLine_ne_nil ht)
    exact head c (rawChar_ne (textLine_head ht c rfl) _ (by decide)) rfl
  | heading level t =>
    have ha := (lineKind_heading hk).1
    have : l.head? = some '#' := by
      cases l with
      | nil => unfold atxLine at ha; simp at ha
      | cons c l =>
        by_cases hc : c = '#'
        · rw [hc]; rfl
        · unfold atxLine at ha
          rw [List.takeWhile_cons_of_neg (by simpa using hc)] at ha
          simp at ha
    exact ⟨none_of (readItem_of_head this (.inl rfl)), hnb, head _ (by decide) this⟩
  | fence f =>
    have hro := (lineKind_isFence hk).1
    have hhead : l.head? = some f.char := by
      unfold lineKind at hk
      split at hk
      · cases hk
      · split at hk
        · cases hk
        · split at hk
          · cases hk
          · split at hk
            · split at hk <;> cases hk
            · split at hk
              · split at hk
                · next h3 => cases hk; exact h3.1
                · cases hk
              · split at hk <;> cases hk
    have hchar : f.char = '`' ∨ f.char = '~' := by
      unfold readOpening at hro
      simp only at hro
      split at hro
      · cases hro
      · split at hro
        · cases hro
        · split at hro
          · next hc =>
            cases hro
            rcases hc.1 with h | h
            · exact .inl h.1
            · exact .inr h
          · cases hro
    exact ⟨none_of (readItem_of_head hhead (hchar.elim (fun h => .inr (.inl h)) fun h => .inr (.inr (.inl h)))), hnb, head _ (by rcases hchar with e | e <;> rw [e] <;> decide) hhead⟩
  | definition label target =>
    have hd := lineKind_isDefinition hk
    have hh : l.head? = some '[' := by
      unfold definitionLine at hd
      split at hd
      · next h0 => exact readDefinition_head h0
      · cases hd
    exact ⟨none_of (readItem_of_head hh (.inr (.inr (.inr rfl)))), hnb, head _ (by decide) hh⟩

end Hongdown.Model
