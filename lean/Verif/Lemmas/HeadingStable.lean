import Verif.Lemmas.HeadingWords

/-! # ASCII case, and sentence case done twice -/

namespace Hongdown
open Model Spec

theorem toLower_toNat (c : Char) : c.toLower.toNat = if 65 ≤ c.toNat ∧ c.toNat ≤ 90 then c.toNat + 32 else c.toNat := by
  unfold Char.toLower
  have h : (c.val ≥ 'A'.val ∧ c.val ≤ 'Z'.val) ↔ (65 ≤ c.toNat ∧ c.toNat ≤ 90) := by
    simp only [ge_iff_le, UInt32.le_iff_toNat_le, Char.toNat]
    exact Iff.rfl
  by_cases hc : 65 ≤ c.toNat ∧ c.toNat ≤ 90
  · rw [dif_pos (h.2 hc), if_pos hc]
    simp only [Char.toNat, UInt32.toNat_add]
    have : c.val.toNat ≤ 90 := hc.2
    have e : ('a'.val - 'A'.val).toNat = 32 := by decide
    rw [e, Nat.mod_eq_of_lt (by omega)]
  · rw [dif_neg (fun hh => hc (h.1 hh)), if_neg hc]

theorem toLower_lower (c : Char) : c.toLower.toLower = c.toLower := by
  apply Char.toNat_inj.1
  rw [toLower_toNat c.toLower]
  rw [toLower_toNat c]
  by_cases h : 65 ≤ c.toNat ∧ c.toNat ≤ 90
  · rw [if_pos h, if_neg (by omega)]
  · rw [if_neg h, if_neg h]

theorem toLower_eq {c d : Char} (hd : d.toNat < 65 ∨ 122 < d.toNat) : c.toLower = d ↔ c = d := by
  rw [← Char.toNat_inj, toLower_toNat, ← Char.toNat_inj]
  split <;> omega

theorem toUpper_toNat (c : Char) : c.toUpper.toNat = if 97 ≤ c.toNat ∧ c.toNat ≤ 122 then c.toNat - 32 else c.toNat := by
  unfold Char.toUpper
  have h : (c.val ≥ 'a'.val ∧ c.val ≤ 'z'.val) ↔ (97 ≤ c.toNat ∧ c.toNat ≤ 122) := by
    simp only [ge_iff_le, UInt32.le_iff_toNat_le, Char.toNat]
    exact Iff.rfl
  by_cases hc : 97 ≤ c.toNat ∧ c.toNat ≤ 122
  · rw [dif_pos (h.2 hc), if_pos hc]
    simp only [Char.toNat, UInt32.toNat_add]
    have : c.val.toNat ≤ 122 := hc.2
    have : 97 ≤ c.val.toNat := hc.1
    have e : ('A'.val - 'a'.val).toNat = 4294967264 := by decide
    rw [e]
    omega
  · rw [dif_neg (fun hh => hc (h.1 hh)), if_neg hc]

theorem toUpper_lower (c : Char) : c.toUpper.toLower = c.toLower := by
  apply Char.toNat_inj.1
  rw [toLower_toNat c.toUpper, toLower_toNat c, toUpper_toNat]
  by_cases h : 97 ≤ c.toNat ∧ c.toNat ≤ 122
  · rw [if_pos h, if_pos (by omega), if_neg (by omega)]; omega
  · rw [if_neg h]

theorem isDigit_classes {c : Char} (h : isAsciiDigit c = true) : c.isAlphanum = true ∧ c.isAlpha = false := by
  simp only [isAsciiDigit, Bool.and_eq_true, decide_eq_true_eq, Char.le_def, UInt32.le_iff_toNat_le] at h
  have h1 : (48 : Nat) ≤ c.val.toNat := h.1
  have h2 : c.val.toNat ≤ 57 := h.2
  simp only [Char.isAlphanum, Char.isAlpha, Char.isUpper, Char.isLower, Char.isDigit, ge_iff_le, UInt32.le_iff_toNat_le]
  constructor
  · simp; omega
  · simp; omega

/-- The two differ only in the case of ASCII letters. -/
def CaseEq (a b : List Char) : Prop := a.map Char.toLower = b.map Char.toLower

theorem isAlpha_lower (c : Char) : c.toLower.isAlpha = c.isAlpha := by
  have := toLower_toNat c
  rw [Bool.eq_iff_iff]
  simp only [Char.isAlpha, Char.isUpper, Char.isLower, Bool.or_eq_true, decide_eq_true_eq, ge_iff_le, UInt32.le_iff_toNat_le,
    Bool.and_eq_true]
  simp
  have h1 : c.toLower.val.toNat = c.toLower.toNat := rfl
  have h2 : c.val.toNat = c.toNat := rfl
  split at this <;> omega

theorem isAlphanum_lower (c : Char) : c.toLower.isAlphanum = c.isAlphanum := by
  rw [Char.isAlphanum, Char.isAlphanum, isAlpha_lower]
  have := toLower_toNat c
  rw [Bool.eq_iff_iff]
  simp only [Char.isAlpha, Char.isUpper, Char.isLower, Char.isDigit, Bool.or_eq_true, decide_eq_true_eq, ge_iff_le, UInt32.le_iff_toNat_le,
    Bool.and_eq_true]
  simp
  have h1 : c.toLower.val.toNat = c.toLower.toNat := rfl
  have h2 : c.val.toNat = c.toNat := rfl
  split at this <;> omega

theorem toLower_ascii {c : Char} (h : c.toNat < 128) : c.toLower.toNat < 128 := by
  rw [toLower_toNat]; split <;> omega

theorem toLower_big {c : Char} (h : 128 ≤ c.toNat) : c.toLower = c := by
  apply Char.toNat_inj.1
  rw [toLower_toNat, if_neg (by omega)]

theorem toLower_notAlpha {c : Char} (h : c.isAlpha = false) : c.toLower = c := by
  apply Char.toNat_inj.1
  rw [toLower_toNat, if_neg]
  intro hc
  have h2 : c.val.toNat = c.toNat := rfl
  have : c.isAlpha = true := by
    simp only [Char.isAlpha, Char.isUpper, Bool.or_eq_true, decide_eq_true_eq, ge_iff_le, UInt32.le_iff_toNat_le]
    simp
    omega
  rw [h] at this; cases this

section
variable {u : Uni} (hu : AsciiOk u)
include hu

theorem alphanumeric_lower (c : Char) : u.alphanumeric c.toLower = u.alphanumeric c := by
  by_cases h : c.toNat < 128
  · rw [hu.alphanumeric _ (toLower_ascii h), hu.alphanumeric _ h, isAlphanum_lower]
  · rw [toLower_big (by omega)]

theorem alphabetic_lower (c : Char) : u.alphabetic c.toLower = u.alphabetic c := by
  by_cases h : c.toNat < 128
  · rw [hu.alphabetic _ (toLower_ascii h), hu.alphabetic _ h, isAlpha_lower]
  · rw [toLower_big (by omega)]

theorem lower_of_not_alphanumeric {c : Char} (h : u.alphanumeric c = false) : c.toLower = c := by
  by_cases hc : c.toNat < 128
  · apply toLower_notAlpha
    rw [hu.alphanumeric _ hc, Char.isAlphanum, Bool.or_eq_false_iff] at h
    exact h.1
  · exact toLower_big (by omega)

theorem lower_of_not_alphanumerics {s : List Char} (h : ∀ c ∈ s, u.alphanumeric c = false) : s.map Char.toLower = s := by
  conv => rhs; rw [← List.map_id s]
  exact List.map_congr_left fun c hc => lower_of_not_alphanumeric hu (h c hc)

omit hu in
theorem possessive_none {s : List Char} (h1 : '\'' ∉ s) (h2 : '’' ∉ s) : possessive s = (s, []) := by
  unfold possessive
  have g : ∀ q, q ∉ s → stripSuffix? [q, 's'] s = none := by
    intro q hq
    cases h : stripSuffix? [q, 's'] s with
    | none => rfl
    | some r =>
      have := stripSuffix?_iff.1 h
      exact absurd (by rw [this]; simp) hq
  rw [g _ h1, g _ h2]

/-- The parts of a word, as the code finds them. -/
def nStop (u : Uni) (c : Char) : Bool := !(u.alphanumeric c || c = '@')
def wLead (u : Uni) (w : List Char) : List Char := w.takeWhile (nStop u)
def wBare (u : Uni) (w : List Char) : List Char := w.dropWhile (nStop u)
def wCore (u : Uni) (w : List Char) : List Char := ((wBare u w).reverse.dropWhile fun c => !u.alphanumeric c).reverse
def wTrail (u : Uni) (w : List Char) : List Char := (wBare u w).drop (wCore u w).length

omit hu in
theorem findProperNoun_parts (n : Nouns) {w : List Char} (h1 : '\'' ∉ w) (h2 : '’' ∉ w) :
      findProperNoun u n w =
        if wCore u w = [] ∨ (wCore u w).any u.alphabetic = false then none
        else if n.common.any (fun c => u.strLower c = u.strLower (wCore u w)) then none
        else match n.proper.find? (fun p => u.strLower p = u.strLower (wCore u w)) with
          | some p => some (wLead u w ++ p ++ wTrail u w)
          | none => match n.builtin.find? (fun p => p.2 = u.strLower (wCore u w)) with
            | some p => some (wLead u w ++ p.1 ++ wTrail u w)
            | none => none := by
  have e : possessive (w.dropWhile fun c => !(u.alphanumeric c || decide (c = '@'))) = (wBare u w, []) := by
    have hs : ∀ c ∈ wBare u w, c ∈ w := fun c hc => (List.dropWhile_sublist _).mem hc
    exact possessive_none (fun h => h1 (hs _ h)) (fun h => h2 (hs _ h))
  unfold findProperNoun
  simp only [e, List.append_nil]
  rfl

omit hu in
theorem bare_eq (w : List Char) : wBare u w = wCore u w ++ wTrail u w ∧ ∀ c ∈ wTrail u w, u.alphanumeric c = false := by
  have h : (wBare u w).reverse = (wBare u w).reverse.takeWhile (fun c => !u.alphanumeric c) ++
      (wBare u w).reverse.dropWhile (fun c => !u.alphanumeric c) := List.takeWhile_append_dropWhile.symm
  have h2 := congrArg List.reverse h
  rw [List.reverse_reverse, List.reverse_append] at h2
  have h3 : wTrail u w = ((wBare u w).reverse.takeWhile (fun c => !u.alphanumeric c)).reverse := by
    unfold wTrail
    conv => lhs; rw [h2]
    rw [wCore, List.drop_left]
  refine ⟨?_, ?_⟩
  · rw [h3]; exact h2
  · intro c hc
    rw [h3, List.mem_reverse] at hc
    have := List.all_takeWhile (p := fun c => !u.alphanumeric c) (l := (wBare u w).reverse)
    rw [List.all_eq_true] at this
    simpa using this c hc

omit hu in
theorem word_eq (w : List Char) : w = wLead u w ++ wCore u w ++ wTrail u w := by
  rw [List.append_assoc, ← (bare_eq w).1]
  exact List.takeWhile_append_dropWhile.symm

omit hu in
theorem lead_class (w : List Char) : ∀ c ∈ wLead u w, u.alphanumeric c = false := by
  intro c hc
  have := List.all_takeWhile (p := nStop u) (l := w)
  rw [List.all_eq_true] at this
  have := this c hc
  simp only [nStop, Bool.not_or, Bool.and_eq_true, Bool.not_eq_true'] at this
  exact this.1

theorem nStop_lower : nStop u ∘ Char.toLower = nStop u := by
  funext c
  simp only [Function.comp, nStop, alphanumeric_lower hu]
  have : (c.toLower = '@') ↔ (c = '@') := toLower_eq (by decide)
  rw [show decide (c.toLower = '@') = decide (c = '@') from by simp only [this]]

theorem lead_lower (w : List Char) : wLead u (w.map Char.toLower) = wLead u w := by
  rw [wLead, List.takeWhile_map, nStop_lower hu]
  exact lower_of_not_alphanumerics hu (lead_class w)

theorem bare_lower (w : List Char) : wBare u (w.map Char.toLower) = (wBare u w).map Char.toLower := by
  rw [wBare, List.dropWhile_map, nStop_lower hu, wBare]

theorem core_lower (w : List Char) : wCore u (w.map Char.toLower) = (wCore u w).map Char.toLower := by
  rw [wCore, bare_lower hu, ← List.map_reverse, List.dropWhile_map, wCore, List.map_reverse]
  have : (fun c => !u.alphanumeric c) ∘ Char.toLower = fun c => !u.alphanumeric c := by
    funext c
    simp only [Function.comp, alphanumeric_lower hu]
  rw [this]

theorem trail_lower (w : List Char) : wTrail u (w.map Char.toLower) = wTrail u w := by
  rw [wTrail, core_lower hu, bare_lower hu, List.length_map, ← List.map_drop]
  exact lower_of_not_alphanumerics hu (bare_eq w).2

/-- ASCII without apostrophes. -/
def Simple (w : List Char) : Prop := ∀ c ∈ w, c.toNat < 128 ∧ c ≠ '\''

omit hu in
theorem Simple.marks {w : List Char} (h : Simple w) : '\'' ∉ w ∧ '’' ∉ w :=
  ⟨fun hm => (h _ hm).2 rfl, fun hm => absurd (h _ hm).1 (by decide)⟩

omit hu in
theorem Simple.caseEq {w w' : List Char} (h : Simple w) (he : CaseEq w' w) : Simple w' := by
  intro c hc
  have : c.toLower ∈ w.map Char.toLower := by rw [← he]; exact List.mem_map_of_mem hc
  obtain ⟨d, hd, e⟩ := List.mem_map.1 this
  have hd' := h d hd
  constructor
  · have h1 := toLower_ascii hd'.1
    rw [e, toLower_toNat] at h1
    split at h1 <;> omega
  · rintro rfl
    rw [show '\''.toLower = '\'' from rfl, toLower_eq (by decide)] at e
    exact hd'.2 e

/-- The noun depends on the word only up to case. -/
theorem findProperNoun_lower (n : Nouns) {w : List Char} (h : Simple w) :
    findProperNoun u n (w.map Char.toLower) = findProperNoun u n w := by
  have hs : Simple (w.map Char.toLower) := h.caseEq (by
    unfold CaseEq
    rw [List.map_map]
    exact List.map_congr_left fun c _ => toLower_lower c)
  have hcore : ∀ c ∈ wCore u w, c.toNat < 128 := fun c hc => (h c (by rw [word_eq (u := u) w]; simp [hc])).1
  have e : u.strLower ((wCore u w).map Char.toLower) = u.strLower (wCore u w) := by
    rw [hu.lower _ hcore, hu.lower _ (by
      intro c hc
      obtain ⟨d, hd, rfl⟩ := List.mem_map.1 hc
      exact toLower_ascii (hcore d hd)), List.map_map]
    exact List.map_congr_left fun c _ => toLower_lower c
  have ha : ((wCore u w).map Char.toLower).any u.alphabetic = (wCore u w).any u.alphabetic := by
    rw [List.any_map]
    congr 1
    funext c
    exact alphabetic_lower hu c
  rw [findProperNoun_parts n hs.marks.1 hs.marks.2, findProperNoun_parts n h.marks.1 h.marks.2, core_lower hu, lead_lower hu, trail_lower hu,
    e, ha]
  simp only [List.map_eq_nil_iff]

theorem findProperNoun_caseEq (n : Nouns) {w w' : List Char} (h : Simple w) (he : CaseEq w' w) :
    findProperNoun u n w' = findProperNoun u n w := by
  rw [← findProperNoun_lower hu n h, ← findProperNoun_lower hu n (h.caseEq he), he]

theorem findProperNoun_eq {n : Nouns} (hn : AsciiNouns n) {w r : List Char} (h : Simple w) (he : findProperNoun u n w = some r) :
    CaseEq r w := by
  rw [findProperNoun_parts n h.marks.1 h.marks.2] at he
  have hcore : ∀ c ∈ wCore u w, c.toNat < 128 := fun c hc => (h c (by rw [word_eq (u := u) w]; simp [hc])).1
  have key : ∀ p : List Char, p.map Char.toLower = (wCore u w).map Char.toLower → CaseEq (wLead u w ++ p ++ wTrail u w) w := by
    intro p hp
    show _ = List.map Char.toLower w
    conv => rhs; rw [word_eq (u := u) w]
    simp only [List.map_append, hp]
  split at he
  · cases he
  · split at he
    · cases he
    · split at he
      · rename_i p hf
        simp only [Option.some.injEq] at he
        subst he
        apply key
        have h1 := List.find?_some hf
        simp only [decide_eq_true_eq] at h1
        rw [hu.lower _ hcore, hu.lower _ (hn.2 p (List.mem_of_find?_eq_some hf))] at h1
        exact h1
      · split at he
        · rename_i p hf
          simp only [Option.some.injEq] at he
          subst he
          apply key
          have h1 := List.find?_some hf
          simp only [decide_eq_true_eq] at h1
          rw [(hn.1 p (List.mem_of_find?_eq_some hf)).1, h1, hu.lower _ hcore]
        · cases he

/-! ### Doing it twice -/

def rc : Bool → List Char → List Char
  | true, c :: rest => c.toUpper :: rest.map Char.toLower
  | _, w => w.map Char.toLower

theorem recased_rc (first : Bool) {w : List Char} (h : Simple w) : recased u first w = rc first w := by
  cases first with
  | false => exact hu.lower w fun d hd => (h d hd).1
  | true =>
    cases w with
    | nil => exact hu.lower [] (by simp)
    | cons c rest =>
      show u.toUpper c ++ u.strLower rest = _
      rw [hu.upper c (h c (by simp)).1, hu.lower rest (fun d hd => (h d (by simp [hd])).1)]
      rfl

omit hu in
theorem lower_lower (s : List Char) : (s.map Char.toLower).map Char.toLower = s.map Char.toLower := by
  rw [List.map_map]
  exact List.map_congr_left fun c _ => toLower_lower c

omit hu in
theorem rc_caseEq (first : Bool) (w : List Char) : CaseEq (rc first w) w := by
  cases first with
  | false => exact lower_lower w
  | true =>
    cases w with
    | nil => rfl
    | cons c rest =>
      show c.toUpper.toLower :: _ = c.toLower :: _
      rw [toUpper_lower, lower_lower]

omit hu in
theorem rc_twice (first : Bool) (w : List Char) : rc first (rc first w) = rc first w := by
  cases first with
  | false => exact lower_lower w
  | true =>
    cases w with
    | nil => rfl
    | cons c rest =>
      show c.toUpper.toUpper :: _ = c.toUpper :: _
      rw [lower_lower]
      congr 1
      apply Char.toNat_inj.1
      rw [toUpper_toNat c.toUpper, toUpper_toNat c]
      by_cases h : 97 ≤ c.toNat ∧ c.toNat ≤ 122
      · rw [if_pos h, if_neg (by omega)]
      · rw [if_neg h, if_neg h]

theorem recased_caseEq (first : Bool) {w : List Char} (h : Simple w) : CaseEq (recased u first w) w := by
  rw [recased_rc hu first h]
  exact rc_caseEq first w

theorem recased_twice (first : Bool) {w : List Char} (h : Simple w) : recased u first (recased u first w) = recased u first w := by
  have hs := h.caseEq (recased_caseEq hu first h)
  rw [recased_rc hu first hs, recased_rc hu first h, rc_twice]

omit hu in
theorem pronoun_caseEq {w w' : List Char} (h : Simple w) (he : CaseEq w' w) : Pronoun w' → w = ['i'] ∨ w = ['I'] := by
  rintro ⟨c, rest, rfl, hc, hr⟩
  have hs := h.caseEq he
  have hrest : rest = [] := by
    rcases hr with h' | h' | h'
    · exact h'
    · cases rest with
      | nil => rfl
      | cons d t =>
        simp at h'
        exact absurd h' (hs d (by simp)).2
    · cases rest with
      | nil => rfl
      | cons d t =>
        simp at h'
        exact absurd (hs d (by simp)).1 (by rw [h']; decide)
  subst hrest
  match w, he with
  | [d], he =>
    have : c.toLower = d.toLower := by simpa [CaseEq] using he
    have hi : d.toLower = 'i' := by rw [← this]; rcases hc with rfl | rfl <;> rfl
    have hn := congrArg Char.toNat hi
    rw [toLower_toNat] at hn
    have : d.toNat = 105 ∨ d.toNat = 73 := by
      have : 'i'.toNat = 105 := rfl
      split at hn <;> omega
    rcases this with h | h
    · left; rw [show d = 'i' from Char.toNat_inj.1 h]
    · right; rw [show d = 'I' from Char.toNat_inj.1 h]
  | [], he => simp [CaseEq] at he
  | _ :: _ :: _, he => simp [CaseEq] at he

theorem wordSimple_twice {n : Nouns} (hn : AsciiNouns n) (first : Bool) {w : List Char} (h : Simple w) :
    CaseEq (processWordSimple u n w first) w ∧
    processWordSimple u n (processWordSimple u n w first) first = processWordSimple u n w first := by
  by_cases hw : w = []
  · subst hw; exact ⟨rfl, rfl⟩
  have hm : ∀ {x : List Char}, Simple x → '�' ∉ x := fun hx hmm => absurd (hx _ hmm).1 (by decide)
  haveI : ∀ x, Decidable (Kept u x) := fun x => Classical.propDecidable _
  have e : ∀ x, x ≠ [] → Simple x → processWordSimple u n x first = if Kept u x then x else match pronounI x with
    | some w => w
    | none => match findProperNoun u n x with
      | some w => w
      | none => recased u first x := by
    intro x hx hs
    rw [processWordSimple, if_neg hx, if_neg (by simpa using hm hs), recased_eq first hx]
    by_cases h1 : AllCaps u x
    · rw [if_pos ((allCaps_iff u x).2 h1), if_pos (.inl h1)]
    · rw [if_neg (fun hh => h1 ((allCaps_iff u x).1 hh))]
      by_cases h2 : Acronym u x
      · rw [if_pos ((isAcronym_iff u x).2 h2), if_pos (.inr h2)]
      · rw [if_neg (fun hh => h2 ((isAcronym_iff u x).1 hh)), if_neg (fun hk => hk.elim h1 h2)]
        rfl
  by_cases hk : Kept u w
  · have := e w hw h
    rw [if_pos hk] at this
    rw [this]
    exact ⟨rfl, this⟩
  by_cases hpr : Pronoun w
  · have hI : processWordSimple u n w first = ['I'] := by
      rw [e w hw h, if_neg hk]
      rcases pronoun_caseEq h rfl hpr with rfl | rfl <;> rfl
    rw [hI]
    refine ⟨?_, ?_⟩
    · rcases pronoun_caseEq h rfl hpr with rfl | rfl <;> rfl
    · rw [e ['I'] (by simp) (by unfold Simple; decide)]
      split
      · rfl
      · rfl
  -- the rest only changes case
  have step : ∀ r, CaseEq r w → (findProperNoun u n w = some r ∨ findProperNoun u n w = none ∧ recased u first r = r) →
      processWordSimple u n r first = r := by
    intro r hr hc
    have hrne : r ≠ [] := by rintro rfl; exact hw (by simpa [CaseEq] using hr.symm)
    have hrs := h.caseEq hr
    rw [e r hrne hrs]
    split
    · rfl
    · have hrp : ¬ Pronoun r := fun hx => hpr (by
        rcases pronoun_caseEq h hr hx with rfl | rfl
        · exact ⟨'i', [], rfl, .inl rfl, .inl rfl⟩
        · exact ⟨'I', [], rfl, .inr rfl, .inl rfl⟩)
      rw [pronounI_none hrp, findProperNoun_caseEq hu n h hr]
      rcases hc with hc | ⟨hc, hc'⟩
      · rw [hc]
      · rw [hc]; exact hc'
  have ew := e w hw h
  rw [if_neg hk, pronounI_none hpr] at ew
  cases hf : findProperNoun u n w with
  | some r =>
    rw [hf] at ew
    rw [ew]
    exact ⟨findProperNoun_eq hu hn h hf, step r (findProperNoun_eq hu hn h hf) (.inl hf)⟩
  | none =>
    rw [hf] at ew
    rw [ew]
    exact ⟨recased_caseEq hu first h, step _ (recased_caseEq hu first h) (.inr ⟨hf, recased_twice hu first h⟩)⟩

omit hu in
theorem CaseEq.mem {w w' : List Char} (he : CaseEq w' w) {d : Char} (hd : d.isAlpha = false) (h : d ∈ w') : d ∈ w := by
  have : d.toLower ∈ w.map Char.toLower := by rw [← he]; exact List.mem_map_of_mem h
  obtain ⟨e, h1, h2⟩ := List.mem_map.1 this
  rw [toLower_notAlpha hd] at h2
  have : e.isAlpha = false := by rw [← isAlpha_lower, h2]; exact hd
  rw [toLower_notAlpha this] at h2
  exact h2 ▸ h1

omit hu in
theorem CaseEq.contains {w w' : List Char} (he : CaseEq w' w) {d : Char} (hd : d.isAlpha = false) : w'.contains d = w.contains d := by
  rw [Bool.eq_iff_iff]
  simp only [List.contains_iff_mem]
  exact ⟨fun h => he.mem hd h, fun h => CaseEq.mem (Eq.symm he) hd h⟩

omit hu in
theorem caseEq_join (sep : Char) (f : List Char → Nat → List Char) : ∀ (ps : List (List Char)) (k : Nat), (∀ p ∈ ps, ∀ i, CaseEq (f p i) p) →
    CaseEq (joinWith [sep] (ps.mapIdx fun i p => f p (i + k))) (joinWith [sep] ps)
  | [], _, _ => rfl
  | [p], k, h => by simpa [joinWith] using h p (by simp) k
  | p :: q :: ps, k, h => by
    have ih := caseEq_join sep f (q :: ps) (k + 1) fun x hx => h x (List.mem_cons_of_mem _ hx)
    have h0 := h p (by simp) k
    rw [List.mapIdx_cons, joinWith_cons _ _ (by simp), joinWith_cons _ _ (by simp)]
    unfold CaseEq at ih h0 ⊢
    simp only [List.map_append, Nat.zero_add, h0]
    rw [← ih]
    congr 4
    funext i p
    rw [Nat.add_assoc, Nat.add_comm 1 k]

theorem parts_twice {n : Nouns} (hn : AsciiNouns n) (first : Bool) (sep : Char) (hsep : sep.isAlpha = false) {w : List Char} (h : Simple w) :
    CaseEq (processParts u n sep w first) w ∧
    processParts u n sep (processParts u n sep w first) first = processParts u n sep w first := by
  have hp : ∀ p ∈ splitOn sep w, Simple p := fun p hp c hc => h c (mem_splitOn_subset hp hc)
  have hc : ∀ p ∈ splitOn sep w, ∀ b, CaseEq (processWordSimple u n p b) p := fun p hp' b => (wordSimple_twice hu hn b (hp p hp')).1
  constructor
  · have := caseEq_join sep (fun p i => processWordSimple u n p (first && i = 0)) (splitOn sep w) 0 fun p hp' i => hc p hp' _
    rw [join_splitOn] at this
    exact this
  · rw [processParts, processParts, splitOn_join]
    · rw [List.mapIdx_mapIdx]
      congr 1
      apply List.ext_getElem?
      intro i
      rw [List.getElem?_mapIdx, List.getElem?_mapIdx]
      cases hi : (splitOn sep w)[i]? with
      | none => rfl
      | some p =>
        simp only [Option.map_some, Function.comp_apply]
        rw [(wordSimple_twice hu hn _ (hp p (List.mem_of_getElem? hi))).2]
    · simp [splitOn_ne_nil]
    · intro p hp'
      obtain ⟨i, hi, rfl⟩ := List.mem_mapIdx.1 hp'
      intro hm
      exact splitOn_not_mem sep w _ (List.getElem_mem hi) (CaseEq.mem (hc _ (List.getElem_mem hi) _) hsep hm)

theorem word_twice {n : Nouns} (hn : AsciiNouns n) (first : Bool) {w : List Char} (h : Simple w) :
    CaseEq (processWord u n w first) w ∧
    processWord u n (processWord u n w first) first = processWord u n w first := by
  have key : ∀ r, CaseEq r w → processWord u n w first = r →
      (findProperNoun u n w = some r ∨ processParts u n '-' r first = r ∨ '-' ∉ w) →
      (findProperNoun u n w = some r ∨ '-' ∈ w ∨ processParts u n '/' r first = r ∨ '/' ∉ w) →
      ('-' ∈ w ∨ '/' ∈ w ∨ processWordSimple u n r first = r) → (findProperNoun u n w = some r ∨ findProperNoun u n w = none ∨ '-' ∉ w ∧ '/' ∉ w) →
      processWord u n r first = r := by
    intro r hr he h1 h2 h3 h4
    rw [processWord, hr.contains (by decide), hr.contains (by decide), findProperNoun_caseEq hu n h hr]
    by_cases hh : '-' ∈ w
    · have e1 : w.contains '-' = true := by simpa using hh
      simp only [e1, Bool.true_or, if_true]
      rcases h4 with h4 | h4 | h4
      · rw [h4]
      · rw [h4]
        rcases h1 with h1 | h1 | h1
        · rw [h4] at h1; cases h1
        · exact h1
        · exact absurd hh h1
      · exact absurd hh h4.1
    · have e1 : w.contains '-' = false := by simpa using hh
      by_cases hs : '/' ∈ w
      · have e2 : w.contains '/' = true := by simpa using hs
        simp only [e1, e2, Bool.or_true, if_true]
        rcases h4 with h4 | h4 | h4
        · rw [h4]
        · rw [h4]
          rcases h2 with h2 | h2 | h2 | h2
          · rw [h4] at h2; cases h2
          · exact absurd h2 hh
          · exact h2
          · exact absurd hs h2
        · exact absurd hs h4.2
      · have e2 : w.contains '/' = false := by simpa using hs
        simp only [e1, e2, Bool.or_self, Bool.false_eq_true, if_false]
        rcases h3 with h3 | h3 | h3
        · exact absurd h3 hh
        · exact absurd h3 hs
        · exact h3
  by_cases hh : '-' ∈ w
  · have e1 : w.contains '-' = true := by simpa using hh
    cases hf : findProperNoun u n w with
    | some r =>
      have e : processWord u n w first = r := by rw [processWord]; simp only [e1, Bool.true_or, if_true, hf]
      rw [e]
      have hr := findProperNoun_eq hu hn h hf
      exact ⟨hr, key r hr e (.inl hf) (.inl hf) (.inl hh) (.inl hf)⟩
    | none =>
      have e : processWord u n w first = processParts u n '-' w first := by rw [processWord]; simp only [e1, Bool.true_or, if_true, hf]
      have hp := parts_twice hu hn first '-' (by decide) h
      rw [e]
      exact ⟨hp.1, key _ hp.1 e (.inr (.inl hp.2)) (.inr (.inl hh)) (.inl hh) (.inr (.inl hf))⟩
  · have e1 : w.contains '-' = false := by simpa using hh
    by_cases hs : '/' ∈ w
    · have e2 : w.contains '/' = true := by simpa using hs
      cases hf : findProperNoun u n w with
      | some r =>
        have e : processWord u n w first = r := by rw [processWord]; simp only [e1, e2, Bool.or_true, if_true, hf]
        rw [e]
        have hr := findProperNoun_eq hu hn h hf
        exact ⟨hr, key r hr e (.inl hf) (.inl hf) (.inr (.inl hs)) (.inl hf)⟩
      | none =>
        have e : processWord u n w first = processParts u n '/' w first := by
          rw [processWord]; simp only [e1, e2, Bool.or_true, if_true, hf, Bool.false_eq_true, if_false]
        have hp := parts_twice hu hn first '/' (by decide) h
        rw [e]
        exact ⟨hp.1, key _ hp.1 e (.inr (.inr hh)) (.inr (.inr (.inl hp.2))) (.inr (.inl hs)) (.inr (.inl hf))⟩
    · have e2 : w.contains '/' = false := by simpa using hs
      have e : processWord u n w first = processWordSimple u n w first := by
        rw [processWord]; simp only [e1, e2, Bool.or_self, Bool.false_eq_true, if_false]
      have hp := wordSimple_twice hu hn first h
      rw [e]
      exact ⟨hp.1, key _ hp.1 e (.inr (.inr hh)) (.inr (.inr (.inr hs))) (.inr (.inr hp.2)) (.inr (.inr ⟨hh, hs⟩))⟩

omit hu in
theorem ascii_ws {c : Char} (h : c.isAlpha = true) (hc : c.toNat < 128) : isWs c = false := by
  have : ∀ n : Fin 128, (Char.ofNat n).isAlpha = true → isWs (Char.ofNat n) = false := by decide
  have := this ⟨c.toNat, hc⟩
  simp only [Char.ofNat_toNat] at this
  exact this h

omit hu in
theorem asciiWord_caseEq {w w' : List Char} (h : AsciiWord u w) (he : CaseEq w' w) : AsciiWord u w' := by
  have hs : Simple w := h.2
  have hs' := hs.caseEq he
  refine ⟨⟨?_, ?_, ?_⟩, hs'⟩
  · rintro rfl
    exact h.1.1 (by simpa [CaseEq] using he.symm)
  · intro c hc
    by_cases ha : c.isAlpha = true
    · refine ⟨ascii_ws ha (hs' c hc).1, ?_⟩
      have := (hs' c hc).1
      intro hx
      have : ∀ d ∈ ['`', '"', '‘', '“', ':', ';', '—', '–', '�'], d.isAlpha = false := by decide
      rw [this c hx] at ha
      cases ha
    · exact h.1.2.1 c (he.mem (by simpa using ha) hc)
  · rintro x y rfl
    exact absurd rfl (hs' '\'' (by simp)).2

/-- Headings of ASCII words come out the same the second time. -/
theorem sentence_twice {n : Nouns} (hn : AsciiNouns n) (ho : OneWordNouns n) (w : List Char) (ws : List (List Char))
    (h : ∀ x ∈ w :: ws, AsciiWord u x) :
    toSentenceCase u n (toSentenceCase u n (joinWith [' '] (w :: ws))) = toSentenceCase u n (joinWith [' '] (w :: ws)) := by
  rw [sentence_words ho w ws fun x hx => (h x hx).1]
  rw [sentence_words ho]
  · rw [(word_twice hu hn true (h w (by simp)).2).2]
    congr 2
    rw [List.map_map]
    apply List.map_congr_left
    intro x hx
    exact (word_twice hu hn false (h x (List.mem_cons_of_mem _ hx)).2).2
  · intro x hx
    rcases List.mem_cons.1 hx with rfl | hx
    · exact (asciiWord_caseEq (h w (by simp)) (word_twice hu hn true (h w (by simp)).2).1).1
    · obtain ⟨y, hy, rfl⟩ := List.mem_map.1 hx
      have hy' := h y (List.mem_cons_of_mem _ hy)
      exact (asciiWord_caseEq hy' (word_twice hu hn false hy'.2).1).1

end

end Hongdown
