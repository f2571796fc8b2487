import Verif.Lemmas.Quotes

namespace Hongdown
open Model Spec

/-- All ASCII factors of the output were factors of the input. -/
def Reflects (T : List Char → List Char) : Prop :=
  ∀ q x, (∀ c ∈ q, c.toNat < 128) → q <:+: T x → q <:+: x

theorem Reflects.id : Reflects id := fun _ _ _ h => h

theorem Reflects.comp {S T : List Char → List Char} (hS : Reflects S) (hT : Reflects T) :
    Reflects (fun x => S (T x)) := fun q x hq h => hT q x hq (hS q _ hq h)

theorem ctxMap_prefix {σ} (f : σ → Option Char → Char → List Char → Char × σ)
    (hf : ∀ st prev c rest, (f st prev c rest).1 = c ∨ 128 ≤ ((f st prev c rest).1).toNat)
    (q : List Char) : ∀ s st prev, (∀ c ∈ q, c.toNat < 128) → q <+: ctxMap f st prev s → q <+: s := by
  induction q with
  | nil => intro s _ _ _ _; exact List.nil_prefix
  | cons x q ih =>
    intro s st prev hq h
    cases s with
    | nil => simp [ctxMap] at h
    | cons c cs =>
      rw [ctxMap, List.cons_prefix_cons] at h
      rw [List.cons_prefix_cons]
      have hx := hq x (by simp)
      rcases hf st prev c cs with h1 | h1
      · exact ⟨h.1.trans h1, ih cs _ _ (fun c hc => hq c (by simp [hc])) h.2⟩
      · rw [← h.1] at h1; omega

theorem ctxMap_reflects {σ} (f : σ → Option Char → Char → List Char → Char × σ)
    (hf : ∀ st prev c rest, (f st prev c rest).1 = c ∨ 128 ≤ ((f st prev c rest).1).toNat)
    (st : σ) (prev : Option Char) : Reflects (ctxMap f st prev) := by
  intro q x hq
  induction x generalizing st prev with
  | nil => intro h; exact h
  | cons c cs ih =>
    intro h
    rw [ctxMap] at h
    rcases List.infix_cons_iff.mp h with h1 | h1
    · rw [← ctxMap] at h1
      exact (ctxMap_prefix f hf q _ _ _ hq h1).isInfix
    · exact (ih _ _ h1).trans (List.suffix_cons c cs).isInfix

theorem tE_prefix (q : List Char) : ∀ s, (∀ c ∈ q, c.toNat < 128) →
    q <+: transformEllipsis s → q <+: s := by
  induction q with
  | nil => intro s _ _; exact List.nil_prefix
  | cons x q ih =>
    intro s hq h
    have hx := hq x (by simp)
    have hq' : ∀ c ∈ q, c.toNat < 128 := fun c hc => hq c (by simp [hc])
    have he : x ≠ ellipsisC := by rintro rfl; revert hx; decide
    by_cases hp : ∃ c rest, s = c :: rest ∧ ¬ ['.', '.', '.'] <+: c :: rest
    · obtain ⟨c, rest, rfl, hn⟩ := hp
      rw [tE_other _ _ hn, List.cons_prefix_cons] at h
      rw [List.cons_prefix_cons]
      exact ⟨h.1, ih rest hq' h.2⟩
    · exfalso
      cases s with
      | nil => simp [tE_nil] at h
      | cons c rest =>
        have hp' : ['.', '.', '.'] <+: c :: rest := by
          by_cases hh : ['.', '.', '.'] <+: c :: rest
          · exact hh
          · exact absurd ⟨c, rest, rfl, hh⟩ hp
        obtain ⟨t, ht⟩ := hp'
        rw [← ht] at h
        simp only [List.cons_append, List.nil_append] at h
        by_cases hd : t.head? = some '.'
        · cases t with
          | nil => simp at hd
          | cons d ds =>
            simp only [List.head?_cons, Option.some.injEq] at hd
            subst hd
            rw [tE_four, List.cons_prefix_cons] at h
            exact he h.1
        · rw [tE_three _ hd, List.cons_prefix_cons] at h
          exact he h.1

theorem tE_reflects : Reflects transformEllipsis := by
  intro q x hq
  revert x
  have nonasc : ∀ t, q <+: ellipsisC :: t → q = [] := by
    intro t h
    cases q with
    | nil => rfl
    | cons y q =>
      rw [List.cons_prefix_cons] at h
      have := hq y (by simp)
      rw [h.1] at this
      exact absurd this (by decide)
  have inf_cons : ∀ (l : List Char) c, q <:+: l → q <:+: c :: l :=
    fun l c h => h.trans (List.suffix_cons c l).isInfix
  refine tE_induction (P := fun x => q <:+: transformEllipsis x → q <:+: x) ?_ ?_ ?_ ?_
  · exact fun h => h
  · intro rest ih h
    rw [tE_four] at h
    rcases List.infix_cons_iff.mp h with h1 | h1
    · rw [nonasc _ h1]; exact List.nil_infix
    · have : q <:+: '.' :: rest := by
        rcases List.infix_cons_iff.mp h1 with h2 | h2
        · cases q with
          | nil => exact List.nil_infix
          | cons y q =>
            rw [List.cons_prefix_cons] at h2
            have := tE_prefix q rest (fun c hc => hq c (by simp [hc])) h2.2
            exact (List.cons_prefix_cons.mpr ⟨h2.1, this⟩).isInfix
        · exact inf_cons _ _ (ih h2)
      exact inf_cons _ _ (inf_cons _ _ (inf_cons _ _ this))
  · intro rest hr ih h
    rw [tE_three _ hr] at h
    rcases List.infix_cons_iff.mp h with h1 | h1
    · rw [nonasc _ h1]; exact List.nil_infix
    · exact inf_cons _ _ (inf_cons _ _ (inf_cons _ _ (ih h1)))
  · intro c rest hp ih h
    rw [tE_other _ _ hp] at h
    rcases List.infix_cons_iff.mp h with h1 | h1
    · rw [← tE_other _ _ hp] at h1
      exact (tE_prefix q _ hq h1).isInfix
    · exact inf_cons _ _ (ih h1)

theorem tD_reflects {pat : List Char} {rep : Char} (h2 : 2 ≤ pat.length) (hr : 128 ≤ rep.toNat) :
    Reflects (transformDashes pat rep) := by
  intro q x hq
  have hrq : rep ∉ q := not_mem_of_ascii hq hr
  refine tD_induction h2 (P := fun x => q <:+: transformDashes pat rep x → q <:+: x) ?_ ?_ ?_ x
  · rw [tD_nil]; exact fun h => h
  · intro rest ih h
    rw [tD_match h2] at h
    rcases List.infix_cons_iff.mp h with h1 | h1
    · cases q with
      | nil => exact List.nil_infix
      | cons y q =>
        rw [List.cons_prefix_cons] at h1
        exact absurd h1.1.symm (by simp at hrq; exact hrq.1)
    · exact (ih h1).trans (List.suffix_append pat rest).isInfix
  · intro c rest hp ih h
    rw [tD_other h2 hp] at h
    rcases List.infix_cons_iff.mp h with h1 | h1
    · rw [← tD_other (rep := rep) h2 hp] at h1
      exact (tD_prefix h2 q _ hrq h1).isInfix
    · exact (ih h1).trans (List.suffix_cons c rest).isInfix

theorem tE_fixed_iff : ∀ s, transformEllipsis s = s ↔ ¬ ['.', '.', '.'] <:+: s := by
  intro s
  constructor
  · intro h hi
    obtain ⟨a, b, rfl⟩ := hi
    -- lengths: every occurrence shortens
    have key : ∀ s, ['.', '.', '.'] <:+: s → (transformEllipsis s).length < s.length := by
      refine tE_induction (P := fun s => ['.', '.', '.'] <:+: s → (transformEllipsis s).length < s.length)
        ?_ ?_ ?_ ?_
      · intro h; simp at h
      · intro rest _ _; have := (tE_length_le rest).1; rw [tE_four]; simp; omega
      · intro rest hr _ _; have := (tE_length_le rest).1; rw [tE_three _ hr]; simp; omega
      · intro c rest hp ih h
        rcases List.infix_cons_iff.mp h with h1 | h1
        · exact absurd h1 hp
        · rw [tE_other _ _ hp]; have := ih h1; simp; omega
    have := key _ ⟨a, b, rfl⟩
    rw [h] at this
    omega
  · induction s with
    | nil => intro _; rfl
    | cons c cs ih =>
      intro h
      rw [tE_other _ _ (fun hp => h hp.isInfix), ih]
      exact fun hh => h (hh.trans (List.suffix_cons c cs).isInfix)

theorem runsGo_of_not_mem {c : Char} (a rest : List Char) (h : c ∉ a) :
    ∀ cur n, n ∈ runsGo c 0 rest → a ≠ [] → n ∈ runsGo c cur (a ++ rest) := by
  induction a with
  | nil => intro cur n _ h0; exact absurd rfl h0
  | cons x a ih =>
    intro cur n hn _
    simp only [List.mem_cons, not_or] at h
    simp only [List.cons_append, runsGo, Ne.symm h.1, if_false, List.mem_cons]
    right
    cases a with
    | nil => exact hn
    | cons y a => exact ih h.2 0 n hn (by simp)

theorem runs_dashes {pat : List Char} {rep : Char} (h2 : 2 ≤ pat.length) (hd : '.' ∉ pat)
    (hr : rep ≠ '.') (s : List Char) : ∀ cur, ∀ n ∈ runsGo '.' cur (transformDashes pat rep s),
      n ∈ runsGo '.' cur s := by
  refine tD_induction h2 (P := fun s => ∀ cur, ∀ n ∈ runsGo '.' cur (transformDashes pat rep s),
      n ∈ runsGo '.' cur s) ?_ ?_ ?_ s
  · intro cur n h; rwa [tD_nil] at h
  · intro rest ih cur n h
    rw [tD_match h2, runsGo, if_neg hr] at h
    have h0 : pat ≠ [] := by rintro rfl; simp at h2
    rcases List.mem_cons.mp h with rfl | h
    · cases pat with
      | nil => exact absurd rfl h0
      | cons x p =>
        simp only [List.mem_cons, not_or] at hd
        simp [runsGo, Ne.symm hd.1]
    · exact runsGo_of_not_mem _ _ hd _ _ (ih 0 n h) h0
  · intro c rest hp ih cur n h
    rw [tD_other h2 hp, runsGo] at h
    rw [runsGo]
    split
    · rename_i hc
      rw [if_pos hc] at h
      exact ih _ _ h
    · rename_i hc
      rw [if_neg hc] at h
      rcases List.mem_cons.mp h with rfl | h
      · simp
      · exact List.mem_cons_of_mem _ (ih 0 n h)

/-! ## The six passes -/

/-- The stages of `transformPunctuation` as functions of the option. -/
def stDash (o : Option (List Char)) (rep : Char) (s : List Char) : List Char :=
  match o with | some p => transformDashes p rep s | none => s
def stEll (b : Bool) (s : List Char) : List Char := if b then transformEllipsis s else s
def stDbl (b : Bool) (s : List Char) : List Char := if b then transformDoubleQuotes s else s
def stSgl (u : Uni) (b : Bool) (s : List Char) : List Char := if b then transformSingleQuotes u s else s
def stApo (u : Uni) (b : Bool) (s : List Char) : List Char := if b then transformApostrophes u s else s

theorem transformPunctuation_eq (u : Uni) (o : PunctOpts) (s : List Char) :
    transformPunctuation u o s =
      stApo u o.curlyApostrophes (stSgl u o.curlySingle (stDbl o.curlyDouble (stEll o.ellipsis
        (stDash o.enDash enDashC (stDash o.emDash emDashC s))))) := rfl

theorem stDash_reflects {o : Option (List Char)} {rep : Char} (h2 : ∀ p ∈ o, 2 ≤ p.length)
    (hr : 128 ≤ rep.toNat) : Reflects (stDash o rep) := by
  cases o with
  | none => exact Reflects.id
  | some p => exact tD_reflects (h2 p rfl) hr

theorem stEll_reflects (b : Bool) : Reflects (stEll b) := by
  cases b with
  | false => exact Reflects.id
  | true => exact tE_reflects

theorem stDbl_reflects (b : Bool) : Reflects (stDbl b) := by
  cases b with
  | false => exact Reflects.id
  | true =>
    apply ctxMap_reflects
    intro st prev c rest
    rcases doubleStep_cases st prev c rest with ⟨_, h⟩ | ⟨rfl, h | h⟩ <;> rw [h]
    · exact Or.inl rfl
    · exact Or.inr (by decide)
    · exact Or.inr (by decide)

theorem stSgl_reflects (u : Uni) (b : Bool) : Reflects (stSgl u b) := by
  cases b with
  | false => exact Reflects.id
  | true =>
    apply ctxMap_reflects
    intro st prev c rest
    rcases singleStep_cases u st prev c rest with ⟨_, h⟩ | ⟨rfl, _, h⟩ | ⟨rfl, _, h | h⟩ <;> rw [h]
    · exact Or.inl rfl
    · exact Or.inl rfl
    · exact Or.inr (by decide)
    · exact Or.inr (by decide)

theorem stApo_reflects (u : Uni) (b : Bool) : Reflects (stApo u b) := by
  cases b with
  | false => exact Reflects.id
  | true =>
    apply ctxMap_reflects
    intro st prev c rest
    rcases apostropheStep_cases u st prev c rest with ⟨_, h⟩ | ⟨rfl, h⟩ | ⟨rfl, h⟩ <;> rw [h]
    · exact Or.inl rfl
    · exact Or.inl rfl
    · right; show 128 ≤ ('’' : Char).toNat; decide

theorem double_no_straight (s : List Char) : '"' ∉ transformDoubleQuotes s := by
  intro h
  obtain ⟨st, prev, c, rest, _, h2⟩ := ctxMap_mem doubleStep s true none '"' h
  rcases doubleStep_cases st prev c rest with ⟨h1, h⟩ | ⟨rfl, h | h⟩ <;> rw [h] at h2
  · exact h1 h2.symm
  · revert h2; decide
  · revert h2; decide

theorem double_id (s : List Char) (h : '"' ∉ s) : transformDoubleQuotes s = s := by
  apply ctxMap_id
  intro st prev c rest hc
  have : c ≠ '"' := by rintro rfl; exact h hc
  simp [doubleStep, this]

theorem pipeline_idem (u : Uni) (hu : u.QuotesOk) (o : PunctOpts)
    (hpat : ∀ p, o.enDash = some p ∨ o.emDash = some p →
      2 ≤ p.length ∧ (∀ c ∈ p, c.toNat < 128) ∧ '.' ∉ p)
    (s : List Char) (hdots : ∀ n ∈ runs '.' s, ¬ (6 ≤ n ∧ n % 4 = 2))
    (hq : ¬ ['\'', '\''] <:+: s) :
    transformPunctuation u o (transformPunctuation u o s) = transformPunctuation u o s := by
  obtain ⟨bd, bs, ba, be, en, em⟩ := o
  rw [transformPunctuation_eq, transformPunctuation_eq]
  simp only at *
  have hem : ∀ p ∈ em, 2 ≤ p.length := fun p hp => (hpat p (Or.inr hp)).1
  have hen : ∀ p ∈ en, 2 ≤ p.length := fun p hp => (hpat p (Or.inl hp)).1
  have rem : Reflects (stDash em emDashC) := stDash_reflects hem (by decide)
  have ren : Reflects (stDash en enDashC) := stDash_reflects hen (by decide)
  have re := stEll_reflects be
  have rd := stDbl_reflects bd
  have rs := stSgl_reflects u bs
  have ra := stApo_reflects u ba
  generalize hx1 : stDash em emDashC s = x1
  generalize hx2 : stDash en enDashC x1 = x2
  generalize hx3 : stEll be x2 = x3
  generalize hx4 : stDbl bd x3 = x4
  generalize hx5 : stSgl u bs x4 = x5
  generalize hx6 : stApo u ba x5 = t
  -- em dashes
  have h1 : stDash em emDashC t = t := by
    cases em with
    | none => rfl
    | some p =>
      apply tD_id (hem p rfl)
      intro hi
      have ha := (hpat p (Or.inr rfl)).2.1
      have : p <:+: x1 := by
        rw [← hx6, ← hx5, ← hx4, ← hx3, ← hx2] at hi
        exact ren _ _ ha (re _ _ ha (rd _ _ ha (rs _ _ ha (ra _ _ ha hi))))
      rw [← hx1] at this
      exact tD_not_infix (hem p rfl) (not_mem_of_ascii ha (by decide)) _ this
  have h2 : stDash en enDashC t = t := by
    cases en with
    | none => rfl
    | some p =>
      apply tD_id (hen p rfl)
      intro hi
      have ha := (hpat p (Or.inl rfl)).2.1
      have : p <:+: x2 := by
        rw [← hx6, ← hx5, ← hx4, ← hx3] at hi
        exact re _ _ ha (rd _ _ ha (rs _ _ ha (ra _ _ ha hi)))
      rw [← hx2] at this
      exact tD_not_infix (hen p rfl) (not_mem_of_ascii ha (by decide)) _ this
  have h3 : stEll be t = t := by
    cases be with
    | false => rfl
    | true =>
      show transformEllipsis t = t
      rw [tE_fixed_iff]
      intro hi
      have ha : ∀ c ∈ ['.', '.', '.'], c.toNat < 128 := by decide
      have hi3 : ['.', '.', '.'] <:+: x3 := by
        rw [← hx6, ← hx5, ← hx4] at hi
        exact rd _ _ ha (rs _ _ ha (ra _ _ ha hi))
      have hst : transformEllipsis x3 = x3 := by
        rw [← hx3]
        show transformEllipsis (transformEllipsis x2) = transformEllipsis x2
        rw [tE_stable_iff]
        intro n hn
        have hn1 : n ∈ runs '.' x1 := by
          cases en with
          | none => rw [← hx2] at hn; exact hn
          | some p =>
            rw [← hx2] at hn
            exact runs_dashes (hen p rfl) (hpat p (Or.inl rfl)).2.2 (by decide) x1 0 n hn
        have hn0 : n ∈ runs '.' s := by
          cases em with
          | none => rw [← hx1] at hn1; exact hn1
          | some p =>
            rw [← hx1] at hn1
            exact runs_dashes (hem p rfl) (hpat p (Or.inr rfl)).2.2 (by decide) s 0 n hn1
        exact hdots n hn0
      exact (tE_fixed_iff x3).mp hst hi3
  have h4 : stDbl bd t = t := by
    cases bd with
    | false => rfl
    | true =>
      apply double_id
      intro hm
      have ha : ∀ c ∈ ['"'], c.toNat < 128 := by decide
      have hi : ['"'] <:+: t := by
        obtain ⟨a, b, rfl⟩ := List.append_of_mem hm
        exact ⟨a, b, by simp⟩
      have : ['"'] <:+: x4 := by
        rw [← hx6, ← hx5] at hi
        exact rs _ _ ha (ra _ _ ha hi)
      rw [← hx4] at this
      exact double_no_straight x3 (this.subset (by simp))
  have h5 : stSgl u bs t = t := by
    cases bs with
    | false => rfl
    | true =>
      have ha : ∀ c ∈ ['\'', '\''], c.toNat < 128 := by decide
      have hadj : noAdj none x4 := by
        apply noAdj_of_not_infix
        · intro hi
          rw [← hx4, ← hx3, ← hx2, ← hx1] at hi
          exact hq (rem _ _ ha (ren _ _ ha (re _ _ ha (rd _ _ ha hi))))
        · simp
      have hz : Curled (ctxMap (singleStep u) true none x4) t := by
        have e5 : ctxMap (singleStep u) true none x4 = x5 := hx5
        rw [e5, ← hx6]
        cases ba with
        | false => exact Curled.refl _
        | true => exact ctxMap_apostrophe_curled u x5 _ _
      exact single_stable u hu x4 true none none t hadj (Or.inl rfl) hz
  have h6 : stApo u ba t = t := by
    cases ba with
    | false => rfl
    | true =>
      rw [← hx6]
      exact apostrophes_idem u hu x5 0 none none (Or.inl rfl)
  rw [h1, h2, h3, h4, h5, h6]

end Hongdown

namespace Hongdown
open Model Spec

/-! ## Which characters can be new -/

theorem mem_tE (d : Char) : ∀ s, d ∈ transformEllipsis s → d ∈ s ∨ d = '…' := by
  refine tE_induction (P := fun s => d ∈ transformEllipsis s → d ∈ s ∨ d = '…') ?_ ?_ ?_ ?_
  · intro h; exact Or.inl h
  · intro rest ih h
    rw [tE_four] at h
    simp only [List.mem_cons] at h ⊢
    rcases h with h | h | h
    · exact Or.inr h
    · simp [h]
    · rcases ih h with h | h <;> simp [h]
  · intro rest hr ih h
    rw [tE_three _ hr] at h
    simp only [List.mem_cons] at h ⊢
    rcases h with h | h
    · exact Or.inr h
    · rcases ih h with h | h <;> simp [h]
  · intro c rest hp ih h
    rw [tE_other _ _ hp] at h
    simp only [List.mem_cons] at h ⊢
    rcases h with h | h
    · simp [h]
    · rcases ih h with h | h <;> simp [h]

theorem mem_tD {pat : List Char} {rep : Char} (h2 : 2 ≤ pat.length) (d : Char) :
    ∀ s, d ∈ transformDashes pat rep s → d ∈ s ∨ d = rep := by
  refine tD_induction h2 (P := fun s => d ∈ transformDashes pat rep s → d ∈ s ∨ d = rep) ?_ ?_ ?_
  · rw [tD_nil]; exact Or.inl
  · intro rest ih h
    rw [tD_match h2] at h
    simp only [List.mem_cons, List.mem_append] at h ⊢
    rcases h with h | h
    · exact Or.inr h
    · rcases ih h with h | h <;> simp [h]
  · intro c rest hp ih h
    rw [tD_other h2 hp] at h
    simp only [List.mem_cons] at h ⊢
    rcases h with h | h
    · simp [h]
    · rcases ih h with h | h <;> simp [h]

theorem mem_quotes (u : Uni) (bd bs ba be : Bool) (d : Char)
    (hd : d ∉ ['…', '“', '”', '‘', '’']) (s : List Char)
    (h : d ∈ stApo u ba (stSgl u bs (stDbl bd (stEll be s)))) : d ∈ s := by
  simp only [List.mem_cons, List.not_mem_nil, or_false, not_or] at hd
  have h1 : ∀ x, d ∈ stApo u ba x → d ∈ x := by
    intro x h
    cases ba with
    | false => exact h
    | true =>
      obtain ⟨st, prev, c, rest, hc, h2⟩ := ctxMap_mem _ _ _ _ _ h
      rcases apostropheStep_cases u st prev c rest with ⟨_, h⟩ | ⟨rfl, h⟩ | ⟨rfl, h⟩ <;> rw [h] at h2
      · exact h2 ▸ hc
      · exact h2 ▸ hc
      · exact absurd h2 hd.2.2.2.2
  have h2 : ∀ x, d ∈ stSgl u bs x → d ∈ x := by
    intro x h
    cases bs with
    | false => exact h
    | true =>
      obtain ⟨st, prev, c, rest, hc, h2⟩ := ctxMap_mem _ _ _ _ _ h
      rcases singleStep_cases u st prev c rest with ⟨_, h⟩ | ⟨rfl, _, h⟩ | ⟨rfl, _, h | h⟩ <;> rw [h] at h2
      · exact h2 ▸ hc
      · exact h2 ▸ hc
      · exact absurd h2 hd.2.2.2.1
      · exact absurd h2 hd.2.2.2.2
  have h3 : ∀ x, d ∈ stDbl bd x → d ∈ x := by
    intro x h
    cases bd with
    | false => exact h
    | true =>
      obtain ⟨st, prev, c, rest, hc, h2⟩ := ctxMap_mem _ _ _ _ _ h
      rcases doubleStep_cases st prev c rest with ⟨_, h⟩ | ⟨rfl, h | h⟩ <;> rw [h] at h2
      · exact h2 ▸ hc
      · exact absurd h2 hd.2.1
      · exact absurd h2 hd.2.2.1
  have h4 : ∀ x, d ∈ stEll be x → d ∈ x := by
    intro x h
    cases be with
    | false => exact h
    | true => exact (mem_tE d x h).resolve_right hd.1
  exact h4 _ (h3 _ (h2 _ (h1 _ h)))

theorem stages_endash (u : Uni) (bd bs ba be : Bool) :
    stApo u ba (stSgl u bs (stDbl bd (stEll be ['–']))) = ['–'] := by
  have e1 : stEll be ['–'] = ['–'] := by cases be <;> rfl
  have e2 : stDbl bd ['–'] = ['–'] := by cases bd <;> rfl
  have e3 : stSgl u bs ['–'] = ['–'] := by
    cases bs
    · rfl
    · show ctxMap (singleStep u) true none ['–'] = _
      rw [ctxMap, singleStep_other u (by decide)]; rfl
  rw [e1, e2, e3]
  cases ba
  · rfl
  · show ctxMap (apostropheStep u) 0 none ['–'] = _
    simp [ctxMap, apostropheStep]

/-! ## Well-formed quotations -/

theorem isAlpha_facts {c : Char} (h : c.isAlpha = true) :
    isWs c = false ∧ 65 ≤ c.toNat ∧ c.toNat ≤ 122 ∧ (c.toNat ≤ 90 ∨ 97 ≤ c.toNat) := by
  have hn : (65 ≤ c.toNat ∧ c.toNat ≤ 90) ∨ (97 ≤ c.toNat ∧ c.toNat ≤ 122) := by
    simp only [Char.isAlpha, Char.isUpper, Char.isLower, Bool.or_eq_true, Bool.and_eq_true,
      decide_eq_true_eq, ge_iff_le, UInt32.le_iff_toNat_le] at h
    exact h
  refine ⟨?_, by omega, by omega, by omega⟩
  simp only [isWs, Bool.or_eq_false_iff, Bool.and_eq_false_iff, decide_eq_false_iff_not,
    beq_eq_false_iff_ne]
  omega

theorem ctxMap_double_append (a r : List Char) (ha : '"' ∉ a) : ∀ e prev,
    ctxMap doubleStep e prev (a ++ r) = a ++ ctxMap doubleStep e (a.getLast?.or prev) r := by
  induction a with
  | nil => intro e prev; simp
  | cons c cs ih =>
    intro e prev
    simp only [List.mem_cons, not_or] at ha
    have : ∀ rest, doubleStep e prev c rest = (c, e) := by
      intro rest; simp [doubleStep, Ne.symm ha.1]
    rw [List.cons_append, ctxMap, this]
    simp only
    rw [ih ha.2, List.cons_append]
    congr 3
    cases cs with
    | nil => simp
    | cons d ds => simp [List.getLast?_cons]

theorem shouldBeOpening_open {c : Char} (h : c.isAlpha = true) (e : Bool) :
    shouldBeOpening none (some c) e = true := by
  have hf := isAlpha_facts h
  have hne : ∀ d : Char, ¬ (65 ≤ d.toNat ∧ d.toNat ≤ 122 ∧ (d.toNat ≤ 90 ∨ 97 ≤ d.toNat)) → c ≠ d := by
    rintro d hd rfl; exact hd hf.2
  simp [shouldBeOpening, hf.1, hne '.' (by decide), hne ',' (by decide), hne ';' (by decide),
    hne ':' (by decide), hne '!' (by decide), hne '?' (by decide), hne ')' (by decide),
    hne ']' (by decide), hne '}' (by decide)]

theorem shouldBeOpening_close {c : Char} (h : c.isAlpha = true) (o : Option Char)
    (ho : ∀ d ∈ o, isWs d = true) (e : Bool) : shouldBeOpening (some c) o e = false := by
  have hf := isAlpha_facts h
  have hne : ∀ d : Char, ¬ (65 ≤ d.toNat ∧ d.toNat ≤ 122 ∧ (d.toNat ≤ 90 ∨ 97 ≤ d.toNat)) → c ≠ d := by
    rintro d hd rfl; exact hd hf.2
  have h2 : c ≠ '[' := hne '[' (by decide)
  cases o with
  | none =>
    simp [shouldBeOpening, hf.1, hne '(' (by decide), h2, hne '{' (by decide),
      hne ldq (by decide), hne lsq (by decide)]
  | some d =>
    have hd := ho d rfl
    simp [shouldBeOpening, hf.1, hd, hne '(' (by decide), h2, hne '{' (by decide),
      hne ldq (by decide), hne lsq (by decide)]

end Hongdown
