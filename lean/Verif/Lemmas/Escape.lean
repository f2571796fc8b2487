import Verif.Lemmas.Basic
import Verif.Model.Escape
import Verif.Spec.Inline

namespace Hongdown
open Model Spec

theorem needsEscape_mem {p c n} (h : needsEscape p c n = true) : c ∈ asciiPunctuation := by
  unfold needsEscape at h
  by_cases h1 : c = '*'
  · subst h1; decide
  by_cases h2 : c = '_'
  · subst h2; decide
  by_cases h3 : c = '['
  · subst h3; decide
  by_cases h4 : c = ']'
  · subst h4; decide
  by_cases h5 : c = '\\'
  · subst h5; decide
  by_cases h6 : c = '`'
  · subst h6; decide
  simp [h1, h2, h3, h4, h5, h6] at h

theorem needsEscape_false {p c n} (h : needsEscape p c n = false) :
    c ≠ '*' ∧ c ≠ '_' ∧ c ≠ '\\' ∧ c ≠ '`' := by
  unfold needsEscape at h
  refine ⟨?_, ?_, ?_, ?_⟩ <;> rintro rfl <;> simp at h

theorem unescape_bs {c} (rest : List Char) (h : c ∈ asciiPunctuation) :
    unescape ('\\' :: c :: rest) = c :: unescape rest := by
  simp [unescape, h]

theorem unescape_other {c} (rest : List Char) (h : c ≠ '\\') :
    unescape (c :: rest) = c :: unescape rest := by
  rw [unescape.eq_def]
  split <;> simp_all

theorem liveChars_bs {c} (rest : List Char) (h : c ∈ asciiPunctuation) :
    liveChars ('\\' :: c :: rest) = liveChars rest := by
  simp [liveChars, h]

theorem liveChars_other {c} (rest : List Char) (h : c ≠ '\\') :
    liveChars (c :: rest) = c :: liveChars rest := by
  rw [liveChars.eq_def]
  split <;> simp_all

theorem unescape_escapeTextGo (s : List Char) : ∀ p, unescape (escapeTextGo p s) = s := by
  induction s with
  | nil => intro p; rfl
  | cons c cs ih =>
    intro p
    rw [escapeTextGo]
    split
    · rename_i h
      rw [unescape_bs _ (needsEscape_mem h), ih]
    · rename_i h
      rw [unescape_other _ (needsEscape_false (by simpa using h)).2.2.1, ih]

theorem liveChars_escapeTextGo (s : List Char) : ∀ p c, c ∈ liveChars (escapeTextGo p s) →
    c ≠ '*' ∧ c ≠ '_' ∧ c ≠ '\\' ∧ c ≠ '`' := by
  induction s with
  | nil => intro p c h; simp [escapeTextGo, liveChars] at h
  | cons d ds ih =>
    intro p c
    rw [escapeTextGo]
    split
    · rename_i h
      rw [liveChars_bs _ (needsEscape_mem h)]
      exact ih _ _
    · rename_i h
      have hn := needsEscape_false (Bool.eq_false_iff.mpr h)
      rw [liveChars_other _ hn.2.2.1]
      intro hc
      rcases List.mem_cons.mp hc with rfl | hc
      · exact hn
      · exact ih _ _ hc

/-! ## Code spans -/

theorem le_maxBackticksGo (s : List Char) : ∀ mx cur, mx ≤ maxBackticksGo mx cur s := by
  induction s with
  | nil => intro mx cur; exact Nat.le_refl _
  | cons c cs ih =>
    intro mx cur
    rw [maxBackticksGo]
    split
    · exact Nat.le_trans (Nat.le_max_left _ _) (ih _ _)
    · exact ih _ _

theorem findClose_ticks (n : Nat) (hn : n ≠ 0) (rest : List Char) (hr : rest.head? ≠ some '`') :
    ∀ k r, r + k = n → findClose n r (List.replicate k '`' ++ rest) = some ([], rest) := by
  intro k
  induction k with
  | zero =>
    intro r h
    have : r = n := by omega
    subst this
    cases rest with
    | nil => simp [findClose]
    | cons c cs =>
      have : c ≠ '`' := by simpa using hr
      simp [findClose, this, hn]
  | succ k ih =>
    intro r h
    rw [List.replicate_succ, List.cons_append, findClose]
    simp only [if_true]
    exact ih (r + 1) (by omega)

theorem findClose_content (n : Nat) (rest : List Char) (hr : rest.head? ≠ some '`') :
    ∀ (s : List Char) (mx cur : Nat), cur ≤ mx → maxBackticksGo mx cur s < n →
    (s = [] → cur = 0) → s.getLast? ≠ some '`' →
    findClose n cur (s ++ (List.replicate n '`' ++ rest)) = some (List.replicate cur '`' ++ s, rest) := by
  intro s
  induction s with
  | nil =>
    intro mx cur _ hlt h0 _
    have h0 := h0 rfl
    subst h0
    simp only [maxBackticksGo] at hlt
    simpa using findClose_ticks n (by omega) rest hr n 0 (by omega)
  | cons c cs ih =>
    intro mx cur hle hlt _ hlast
    rw [maxBackticksGo] at hlt
    rw [List.cons_append, findClose]
    by_cases hc : c = '`'
    · subst hc
      simp only [if_true] at hlt ⊢
      have hcs : cs ≠ [] := by rintro rfl; simp at hlast
      have hlast' : cs.getLast? ≠ some '`' := by
        rwa [List.getLast?_cons, List.getLast?_eq_some_getLast hcs, Option.getD_some,
          ← List.getLast?_eq_some_getLast hcs] at hlast
      rw [ih _ _ (Nat.le_max_right _ _) hlt (fun h => absurd h hcs) hlast']
      simp [List.replicate_succ']
    · simp only [hc, if_false] at hlt ⊢
      have hmx : mx < n := Nat.lt_of_le_of_lt (le_maxBackticksGo cs mx 0) hlt
      have hne : ¬ (cur = n ∧ cur ≠ 0) := by omega
      rw [if_neg hne]
      have hlast' : cs.getLast? ≠ some '`' := by
        by_cases hcs : cs = []
        · subst hcs; simp
        · rwa [List.getLast?_cons, List.getLast?_eq_some_getLast hcs, Option.getD_some,
            ← List.getLast?_eq_some_getLast hcs] at hlast
      rw [ih mx 0 (Nat.zero_le _) hlt (fun _ => rfl) hlast']
      simp

theorem tickRun_replicate (n : Nat) (s : List Char) (h : s.head? ≠ some '`') :
    tickRun (List.replicate n '`' ++ s) = (n, s) := by
  induction n with
  | zero =>
    cases s with
    | nil => simp [tickRun]
    | cons c cs =>
      have : c ≠ '`' := by simpa using h
      simp only [List.replicate_zero, List.nil_append]
      rw [tickRun.eq_def]
      split <;> simp_all
  | succ n ih => simp [List.replicate_succ, tickRun, ih]

theorem maxBackticksGo_append_space (s : List Char) : ∀ mx cur,
    maxBackticksGo mx cur (s ++ [' ']) = maxBackticksGo mx cur s := by
  induction s with
  | nil => intro mx cur; simp [maxBackticksGo]
  | cons c cs ih =>
    intro mx cur
    simp only [List.cons_append, maxBackticksGo, ih]

/-- Reading `n` ticks, a body whose runs are shorter than `n`, and `n` ticks. -/
theorem readCodeSpan_body (n : Nat) (hn : n ≠ 0) (body rest : List Char)
    (hb : body ≠ []) (h1 : body.head? ≠ some '`') (h2 : body.getLast? ≠ some '`')
    (hm : maxBackticksGo 0 0 body < n) (hr : rest.head? ≠ some '`') :
    readCodeSpan (List.replicate n '`' ++ body ++ List.replicate n '`' ++ rest)
      = some (stripCodeSpaces body, rest) := by
  have ht := tickRun_replicate n (body ++ (List.replicate n '`' ++ rest)) (by
    cases body with
    | nil => exact absurd rfl hb
    | cons c cs => simpa using h1)
  simp only [List.append_assoc]
  rw [readCodeSpan]
  simp only [ht, hn, if_false]
  rw [findClose_content n rest hr body 0 0 (Nat.le_refl _) hm (fun h => absurd h hb) h2]
  simp

/-! ## Table cells -/

theorem escapeTableCell_bs (d : Char) (rest : List Char) :
    escapeTableCell ('\\' :: d :: rest) = '\\' :: d :: escapeTableCell rest := by
  simp [escapeTableCell]

theorem escapeTableCell_pipe (rest : List Char) :
    escapeTableCell ('|' :: rest) = '\\' :: '|' :: escapeTableCell rest := by
  cases rest <;> simp [escapeTableCell]

theorem escapeTableCell_other {c : Char} (rest : List Char) (h1 : c ≠ '\\') (h2 : c ≠ '|') :
    escapeTableCell (c :: rest) = c :: escapeTableCell rest := by
  cases rest <;> simp [escapeTableCell, h1, h2]

theorem livePipes_bs (d : Char) (rest : List Char) :
    livePipes ('\\' :: d :: rest) = livePipes rest := by
  simp [livePipes]

theorem livePipes_other {c : Char} (rest : List Char) (h1 : c ≠ '\\') :
    livePipes (c :: rest) = (if c = '|' then 1 else 0) + livePipes rest := by
  rw [livePipes.eq_def]
  split <;> simp_all

/-- Case analysis following the two-character steps of the cell scanners. -/
theorem cellCases {P : List Char → Prop} (h0 : P []) (h1 : P ['\\'])
    (hb : ∀ d rest, P rest → P ('\\' :: d :: rest))
    (ho : ∀ c rest, c ≠ '\\' → P rest → P (c :: rest)) : ∀ s, P s
  | [] => h0
  | [c] => if h : c = '\\' then h ▸ h1 else ho c [] h h0
  | c :: d :: rest =>
    if h : c = '\\' then h ▸ hb d rest (cellCases h0 h1 hb ho rest)
    else ho c (d :: rest) h (cellCases h0 h1 hb ho (d :: rest))

theorem escapeTableCell_length : ∀ s,
    (escapeTableCell s).length = s.length + livePipes s := by
  refine cellCases rfl rfl ?_ ?_
  · intro d rest ih
    rw [escapeTableCell_bs, livePipes_bs]; simp [ih]; omega
  · intro c rest hc ih
    by_cases hp : c = '|'
    · subst hp; rw [escapeTableCell_pipe, livePipes_other _ hc]; simp [ih]; omega
    · rw [escapeTableCell_other _ hc hp, livePipes_other _ hc]; simp [ih, hp]; omega

theorem cellText_bs (d : Char) (rest : List Char) :
    cellText ('\\' :: d :: rest) =
      if d = '|' then '|' :: cellText rest else '\\' :: d :: cellText rest := by
  simp [cellText]

theorem cellText_other {c : Char} (rest : List Char) (h1 : c ≠ '\\') :
    cellText (c :: rest) = c :: cellText rest := by
  rw [cellText.eq_def]
  split <;> simp_all

/-! ## Valid code spans -/

theorem takeWhile_ticks (n : Nat) (s : List Char) (h : s.head? ≠ some '`') :
    (List.replicate n '`' ++ s).takeWhile (· = '`') = List.replicate n '`' := by
  induction n with
  | zero =>
    cases s with
    | nil => rfl
    | cons c cs =>
      have : c ≠ '`' := by simpa using h
      simp [this]
  | succ n ih => simp [List.replicate_succ, ih]

theorem takeWhile_ticks_eq (s : List Char) :
    s.takeWhile (· = '`') = List.replicate (s.takeWhile (· = '`')).length '`' := by
  rw [List.eq_replicate_iff]
  refine ⟨rfl, fun b hb => ?_⟩
  simpa using of_mem_takeWhile hb

theorem dropWhile_ticks_head (s : List Char) : (s.dropWhile (· = '`')).head? ≠ some '`' := by
  intro h
  have := List.head?_dropWhile_not (fun c : Char => decide (c = '`')) s
  rw [h] at this
  simp at this

theorem utf8Len_pos (c : Char) : 1 ≤ utf8Len c := by
  unfold utf8Len; split <;> (try split) <;> (try split) <;> omega

theorem length_le_byteLen (s : List Char) : s.length ≤ byteLen s := by
  induction s with
  | nil => simp [byteLen]
  | cons c cs ih =>
    have := utf8Len_pos c
    simp only [byteLen, List.map_cons, List.sum_cons, List.length_cons] at *
    omega

theorem byteLen_replicate_tick (n : Nat) : byteLen (List.replicate n '`') = n := by
  induction n with
  | zero => rfl
  | succ n ih =>
    have : utf8Len '`' = 1 := by decide
    simp only [byteLen, List.replicate_succ, List.map_cons, List.sum_cons] at *
    omega

theorem isValidCodeSpan_iff (s : List Char) :
    isValidCodeSpan s = true ↔
      ∃ (n : Nat) (body : List Char), 0 < n ∧ body ≠ [] ∧ body.head? ≠ some '`' ∧
        body.getLast? ≠ some '`' ∧ s = List.replicate n '`' ++ body ++ List.replicate n '`' := by
  constructor
  · intro h
    unfold isValidCodeSpan at h
    split at h
    · simp at h
    simp only [] at h
    split at h
    · simp at h
    rename_i hs hl
    simp only [Bool.and_eq_true, decide_eq_true_eq] at h
    obtain ⟨hlt, hle⟩ := h
    generalize hn : (s.takeWhile (· = '`')).length = n at *
    -- the part after the leading ticks
    have e1 : s = List.replicate n '`' ++ s.dropWhile (· = '`') := by
      conv => lhs; rw [← List.takeWhile_append_dropWhile (p := fun c => decide (c = '`')) (l := s)]
      rw [takeWhile_ticks_eq, hn]
    generalize hb : s.dropWhile (· = '`') = d at *
    have hd1 : d.head? ≠ some '`' := hb ▸ dropWhile_ticks_head s
    have hd0 : d ≠ [] := by
      rintro rfl
      rw [e1, List.append_nil, byteLen_replicate_tick] at hle
      omega
    -- the trailing ticks are inside of d
    have e2 : s.reverse = d.reverse ++ List.replicate n '`' := by
      rw [e1]; simp
    have hx : ∃ x ∈ d.reverse, ¬ (decide (x = '`') = true) := by
      cases d with
      | nil => exact absurd rfl hd0
      | cons c cs => exact ⟨c, by simp, by simpa using hd1⟩
    have ht : s.reverse.takeWhile (· = '`') = d.reverse.takeWhile (· = '`') := by
      rw [e2, List.takeWhile_append]
      split
      · rename_i hc
        exfalso
        obtain ⟨x, hx1, hx2⟩ := hx
        have hpre := List.takeWhile_prefix (l := d.reverse) (fun c => decide (c = '`'))
        have heq := hpre.eq_of_length hc
        rw [← heq] at hx1
        exact hx2 (of_mem_takeWhile (p := fun c => decide (c = '`')) hx1)
      · rfl
    rw [ht] at hlt
    have e3 : d.reverse = List.replicate n '`' ++ d.reverse.dropWhile (· = '`') := by
      conv => lhs; rw [← List.takeWhile_append_dropWhile (p := fun c => decide (c = '`')) (l := d.reverse)]
      rw [takeWhile_ticks_eq, ← hlt]
    have e4 : d = (d.reverse.dropWhile (· = '`')).reverse ++ List.replicate n '`' := by
      have := congrArg List.reverse e3
      simpa using this
    have hb0 : d.reverse.dropWhile (· = '`') ≠ [] := by
      intro h0
      rw [h0] at e4
      simp only [List.reverse_nil, List.nil_append] at e4
      rw [e4] at hd1
      cases n with
      | zero => omega
      | succ n => simp [List.replicate_succ] at hd1
    refine ⟨n, (d.reverse.dropWhile (· = '`')).reverse, by omega, by simpa using hb0, ?_, ?_, ?_⟩
    · have hne : (d.reverse.dropWhile (· = '`')).reverse ≠ [] := by simpa using hb0
      have h3 : d.head? = (d.reverse.dropWhile (· = '`')).reverse.head? := by
        conv => lhs; rw [e4]
        rw [List.head?_append]
        cases hh : (d.reverse.dropWhile (· = '`')).reverse with
        | nil => exact absurd hh hne
        | cons c cs => rfl
      rwa [← h3]
    · rw [List.getLast?_reverse]
      exact dropWhile_ticks_head _
    · rw [e1, List.append_assoc, ← e4]
  · rintro ⟨n, body, hn, hb, h1, h2, rfl⟩
    have e1 : (List.replicate n '`' ++ body ++ List.replicate n '`').takeWhile (· = '`')
        = List.replicate n '`' := by
      rw [List.append_assoc]
      apply takeWhile_ticks
      cases body with
      | nil => exact absurd rfl hb
      | cons c cs => simpa using h1
    have e2 : (List.replicate n '`' ++ body ++ List.replicate n '`').reverse.takeWhile (· = '`')
        = List.replicate n '`' := by
      simp only [List.reverse_append, List.reverse_replicate]
      apply takeWhile_ticks
      rw [List.head?_append, List.head?_reverse]
      cases hh : body.getLast? with
      | none => exact absurd (List.getLast?_eq_none_iff.mp hh) hb
      | some c => rw [hh] at h2; simpa using h2
    unfold isValidCodeSpan
    rw [if_neg (by simp [hb]), e1, e2]
    simp only [List.length_replicate]
    rw [if_neg (by omega)]
    have := length_le_byteLen (List.replicate n '`' ++ body ++ List.replicate n '`')
    simp only [List.length_append, List.length_replicate] at this
    have hle : n ≤ byteLen (List.replicate n '`' ++ body ++ List.replicate n '`') / 2 := by omega
    rw [Bool.and_eq_true, decide_eq_true_eq, decide_eq_true_eq]
    exact ⟨trivial, hle⟩

/-! ## Links in escaped text -/

theorem mayFormLink_bs {c} (d : Nat) (rest : List Char) (h : c ∈ asciiPunctuation) :
    mayFormLink d ('\\' :: c :: rest) = mayFormLink d rest := by
  simp [mayFormLink, h]

theorem mayFormLink_other {c} (d : Nat) (rest : List Char) (h1 : c ≠ '\\') (h2 : c ≠ '[')
    (h3 : c ≠ ']') : mayFormLink d (c :: rest) = mayFormLink d rest := by
  rw [mayFormLink.eq_def]
  split <;> simp_all

theorem mayFormLink_escapeTextGo (s : List Char) : ∀ p, ¬ ['[', '['] <:+: s →
    mayFormLink 0 (escapeTextGo p s) = false := by
  induction s with
  | nil => intro p _; rfl
  | cons c cs ih =>
    intro p h
    have h' : ¬ ['[', '['] <:+: cs := fun hh => h (hh.trans (List.suffix_cons c cs).isInfix)
    rw [escapeTextGo]
    split
    · rename_i he
      rw [mayFormLink_bs _ _ (needsEscape_mem he)]
      exact ih _ h'
    · rename_i he
      have hn := needsEscape_false (Bool.eq_false_iff.mpr he)
      by_cases h2 : c = '['
      · subst h2
        cases cs with
        | nil => rfl
        | cons d ds =>
          by_cases hd : d = '['
          · subst hd
            exact absurd ⟨[], ds, by simp⟩ h
          · simp [needsEscape, hd] at he
      · by_cases h3 : c = ']'
        · subst h3
          simp only [mayFormLink]
          exact ih _ h'
        · rw [mayFormLink_other _ _ hn.2.2.1 h2 h3]
          exact ih _ h'

theorem escapeTextGo_head (s : List Char) (p : Option Char) (c : Char) (h : c ≠ '\\')
    (hc : (escapeTextGo p s).head? = some c) : s.head? = some c := by
  cases s with
  | nil => simp [escapeTextGo] at hc
  | cons d ds =>
    rw [escapeTextGo] at hc
    split at hc
    · simp at hc; exact absurd hc.symm h
    · simpa using hc

theorem mayFormLink_escapeTextGo_close (s : List Char) : ∀ p d, (p = none → d = 0) →
    ¬ [']', ']', '('] <:+: p.toList ++ s → ¬ [']', ']', '['] <:+: p.toList ++ s →
    mayFormLink d (escapeTextGo p s) = false := by
  induction s with
  | nil => intro p d _ _ _; rfl
  | cons c cs ih =>
    intro p d hd h1 h2
    have suf : ∀ x : List Char, x <:+: [c] ++ cs → x <:+: p.toList ++ c :: cs := by
      intro x hx
      exact hx.trans (List.suffix_append p.toList (c :: cs)).isInfix
    have h1' : ¬ [']', ']', '('] <:+: (some c).toList ++ cs := fun hh => h1 (suf _ hh)
    have h2' : ¬ [']', ']', '['] <:+: (some c).toList ++ cs := fun hh => h2 (suf _ hh)
    rw [escapeTextGo]
    split
    · rename_i he
      rw [mayFormLink_bs _ _ (needsEscape_mem he)]
      exact ih _ _ (by simp) h1' h2'
    · rename_i he
      have hn := needsEscape_false (Bool.eq_false_iff.mpr he)
      by_cases h3 : c = '['
      · subst h3
        simp only [mayFormLink]
        exact ih _ _ (by simp) h1' h2'
      · by_cases h4 : c = ']'
        · subst h4
          simp only [mayFormLink]
          split
          · exact ih _ _ (by simp) h1' h2'
          · rename_i hd0
            split
            · rename_i hh
              exfalso
              have hnx : cs.head? = some '(' ∨ cs.head? = some '[' :=
                hh.imp (escapeTextGo_head _ _ _ (by decide)) (escapeTextGo_head _ _ _ (by decide))
              cases hp : p with
              | none => exact hd0 (hd hp)
              | some q =>
                subst hp
                have hq : q = ']' := by
                  by_cases hq : q = ']'
                  · exact hq
                  · rcases hnx with hnx | hnx <;> simp [needsEscape, hq, hnx] at he
                subst hq
                cases cs with
                | nil => simp at hnx
                | cons e es =>
                  simp only [List.head?_cons, Option.some.injEq] at hnx
                  rcases hnx with rfl | rfl
                  · exact h1 ⟨[], es, by simp⟩
                  · exact h2 ⟨[], es, by simp⟩
            · exact ih _ _ (by simp) h1' h2'
        · rw [mayFormLink_other _ _ hn.2.2.1 h3 h4]
          exact ih _ _ (by simp) h1' h2'

end Hongdown
