import Verif.Lemmas.Basic
import Verif.Spec.Words

namespace Hongdown
open Spec

/-! ## trim -/

theorem trimEnd_append (s : List Char) : ∃ t, (∀ c ∈ t, isWs c = true) ∧ s = trimEnd s ++ t := by
  refine ⟨(s.reverse.takeWhile isWs).reverse, ?_, ?_⟩
  · intro c hc
    exact of_mem_takeWhile (List.mem_reverse.mp hc)
  · rw [trimEnd, ← List.reverse_append, List.takeWhile_append_dropWhile, List.reverse_reverse]

theorem trimStart_append (s : List Char) : ∃ t, (∀ c ∈ t, isWs c = true) ∧ s = t ++ trimStart s :=
  ⟨s.takeWhile isWs, fun _ hc => of_mem_takeWhile hc, (List.takeWhile_append_dropWhile).symm⟩

theorem head?_dropWhile_isWs (s : List Char) : ∀ c ∈ (s.dropWhile isWs).head?, isWs c = false := by
  intro c hc
  have := List.head?_dropWhile_not isWs s
  rw [Option.mem_def.mp hc] at this
  simpa using this

theorem trimEnd_getLast (s : List Char) : ∀ c ∈ (trimEnd s).getLast?, isWs c = false := by
  intro c hc
  rw [trimEnd, List.getLast?_reverse] at hc
  exact head?_dropWhile_isWs _ c hc

theorem dropWhile_isWs_of_head {s : List Char} (h : ∀ c ∈ s.head?, isWs c = false) :
    s.dropWhile isWs = s := by
  cases s with
  | nil => rfl
  | cons c cs => rw [List.dropWhile_cons, h c rfl]; rfl

theorem trimEnd_of_getLast {s : List Char} (h : ∀ c ∈ s.getLast?, isWs c = false) :
    trimEnd s = s := by
  rw [trimEnd, dropWhile_isWs_of_head, List.reverse_reverse]
  rwa [List.head?_reverse]

theorem dropWhile_isWs_append {t s : List Char} (h : ∀ c ∈ t, isWs c = true) :
    (t ++ s).dropWhile isWs = s.dropWhile isWs := by
  induction t with
  | nil => rfl
  | cons c cs ih =>
    rw [List.cons_append, List.dropWhile_cons, h c (by simp), if_pos rfl,
      ih (fun d hd => h d (by simp [hd]))]

theorem trimEnd_append_ws {s t : List Char} (h : ∀ c ∈ t, isWs c = true) :
    trimEnd (s ++ t) = trimEnd s := by
  rw [trimEnd, List.reverse_append, dropWhile_isWs_append, trimEnd]
  intro c hc; exact h c (List.mem_reverse.mp hc)

theorem trimEnd_append_right {s t : List Char} (h : trimEnd t ≠ []) :
    trimEnd (s ++ t) = s ++ trimEnd t := by
  have hd : t.reverse.dropWhile isWs ≠ [] := by
    intro hh; apply h; rw [trimEnd, hh]; rfl
  have key : ∀ a b : List Char, a.dropWhile isWs ≠ [] →
      (a ++ b).dropWhile isWs = a.dropWhile isWs ++ b := by
    intro a b
    induction a with
    | nil => intro h; exact absurd rfl h
    | cons c cs ih =>
      intro h
      rw [List.dropWhile_cons] at h
      rw [List.cons_append, List.dropWhile_cons, List.dropWhile_cons]
      by_cases hc : isWs c = true
      · rw [if_pos hc] at h ⊢; rw [if_pos hc]; exact ih h
      · rw [if_neg hc, if_neg hc]; rfl
  rw [trimEnd, List.reverse_append, key _ _ hd]
  simp [trimEnd]

theorem trimEnd_eq_nil_iff {s : List Char} : trimEnd s = [] ↔ ∀ c ∈ s, isWs c = true := by
  constructor
  · intro h
    obtain ⟨t, ht, he⟩ := trimEnd_append s
    rw [h, List.nil_append] at he
    rw [he]; exact ht
  · intro h
    have := trimEnd_append_ws (s := []) h
    simpa [trimEnd] using this

theorem trim_of_ends {s : List Char} (h1 : ∀ c ∈ s.head?, isWs c = false)
    (h2 : ∀ c ∈ s.getLast?, isWs c = false) : trim s = s := by
  rw [trim, trimStart, dropWhile_isWs_of_head h1, trimEnd_of_getLast h2]

theorem trim_append (s : List Char) : ∃ a b, (∀ c ∈ a, isWs c = true) ∧ (∀ c ∈ b, isWs c = true) ∧
    s = a ++ trim s ++ b := by
  obtain ⟨a, ha, e1⟩ := trimStart_append s
  obtain ⟨b, hb, e2⟩ := trimEnd_append (trimStart s)
  refine ⟨a, b, ha, hb, ?_⟩
  rw [trim, List.append_assoc, ← e2, ← e1]

theorem trimEnd_prefix (s : List Char) : trimEnd s <+: s := by
  obtain ⟨t, _, e⟩ := trimEnd_append s
  exact ⟨t, e.symm⟩

theorem trim_head (s : List Char) : ∀ c ∈ (trim s).head?, isWs c = false := by
  intro c hc
  have hp : trimEnd (trimStart s) <+: trimStart s := trimEnd_prefix _
  obtain ⟨t, ht⟩ := hp
  have : (trimStart s).head? = some c := by
    rw [← ht, List.head?_append]
    rw [trim] at hc
    rw [Option.mem_def.mp hc]; rfl
  exact head?_dropWhile_isWs s c this

theorem trim_getLast (s : List Char) : ∀ c ∈ (trim s).getLast?, isWs c = false :=
  trimEnd_getLast _

theorem trim_trim (s : List Char) : trim (trim s) = trim s :=
  trim_of_ends (trim_head s) (trim_getLast s)

/-! ## visible characters -/

theorem visible_append (a b : List Char) : visible (a ++ b) = visible a ++ visible b := by
  simp [visible]

theorem visible_ws {t : List Char} (h : ∀ c ∈ t, isWs c = true) : visible t = [] := by
  rw [visible, List.filter_eq_nil_iff]
  intro c hc; simp [h c hc]

theorem visible_trimEnd (s : List Char) : visible (trimEnd s) = visible s := by
  obtain ⟨t, ht, e⟩ := trimEnd_append s
  conv => rhs; rw [e]
  rw [visible_append, visible_ws ht, List.append_nil]

theorem visible_trim (s : List Char) : visible (trim s) = visible s := by
  obtain ⟨a, b, ha, hb, e⟩ := trim_append s
  conv => rhs; rw [e]
  rw [visible_append, visible_append, visible_ws ha, visible_ws hb, List.append_nil, List.nil_append]

/-! ## words -/

/-- A separator character for `words`. -/
def isSep (c : Char) : Prop := isWs c = true ∨ c = '\x00'

instance : DecidablePred isSep := fun c => by unfold isSep; infer_instance

theorem wordsAux_sep (acc : List Char) {c : Char} (h : isSep c) (cs : List Char) :
    wordsAux acc (c :: cs) = wordsAux acc [] ++ wordsAux [] cs := by
  have h' : isWs c = true ∨ c = '\x00' := h
  rw [wordsAux.eq_2, if_pos h', wordsAux.eq_1]

theorem wordsAux_append_sep (a : List Char) {c : Char} (h : isSep c) (b : List Char) :
    ∀ acc, wordsAux acc (a ++ c :: b) = wordsAux acc a ++ wordsAux [] b := by
  induction a with
  | nil => intro acc; exact wordsAux_sep acc h b
  | cons x xs ih =>
    intro acc
    rw [List.cons_append]
    by_cases hx : isSep x
    · rw [wordsAux_sep _ hx, wordsAux_sep _ hx, ih, List.append_assoc]
    · have hx' : ¬ (isWs x = true ∨ x = '\x00') := hx
      rw [wordsAux.eq_2, wordsAux.eq_2, if_neg hx', if_neg hx', ih]

theorem words_append_sep (a : List Char) {c : Char} (h : isSep c) (b : List Char) :
    words (a ++ c :: b) = words a ++ words b := wordsAux_append_sep a h b []

theorem words_nil : words [] = [] := rfl

theorem words_sep_cons {c : Char} (h : isSep c) (b : List Char) : words (c :: b) = words b := by
  have := words_append_sep [] h b
  simpa [words_nil] using this

theorem words_seps {t : List Char} (h : ∀ c ∈ t, isSep c) (b : List Char) :
    words (t ++ b) = words b := by
  induction t with
  | nil => rfl
  | cons c cs ih =>
    rw [List.cons_append, words_sep_cons (h c (by simp)), ih (fun d hd => h d (by simp [hd]))]

theorem words_append_seps_mid {t : List Char} (h : ∀ c ∈ t, isSep c) (h0 : t ≠ []) (a b : List Char) :
    words (a ++ t ++ b) = words a ++ words b := by
  cases t with
  | nil => exact absurd rfl h0
  | cons c cs =>
    rw [List.append_assoc, List.cons_append, words_append_sep a (h c (by simp)),
      words_seps (fun d hd => h d (by simp [hd]))]

theorem words_append_seps {t : List Char} (h : ∀ c ∈ t, isSep c) (a : List Char) :
    words (a ++ t) = words a := by
  cases t with
  | nil => rw [List.append_nil]
  | cons c cs =>
    have := words_append_seps_mid h (by simp) a []
    simpa [words_nil] using this

theorem words_trimEnd (s : List Char) : words (trimEnd s) = words s := by
  obtain ⟨t, ht, e⟩ := trimEnd_append s
  conv => rhs; rw [e]
  rw [words_append_seps (fun c hc => Or.inl (ht c hc))]

theorem words_trim (s : List Char) : words (trim s) = words s := by
  obtain ⟨a, b, ha, hb, e⟩ := trim_append s
  conv => rhs; rw [e]
  rw [words_append_seps (fun c hc => Or.inl (hb c hc)), words_seps (fun c hc => Or.inl (ha c hc))]

theorem isSep_nl : isSep '\n' := Or.inl (by decide)
theorem isSep_space : isSep ' ' := Or.inl (by decide)
theorem isSep_nul : isSep '\x00' := Or.inr rfl

/-! ## split and join -/

theorem splitOn_ne_nil (c : Char) (s : List Char) : splitOn c s ≠ [] := by
  induction s with
  | nil => simp [splitOn]
  | cons x xs ih =>
    rw [splitOn]
    split
    · simp
    · split <;> simp

theorem splitOn_cons_of_ne {c x : Char} (h : x ≠ c) (xs : List Char) :
    ∃ p ps, splitOn c xs = p :: ps ∧ splitOn c (x :: xs) = (x :: p) :: ps := by
  cases hs : splitOn c xs with
  | nil => exact absurd hs (splitOn_ne_nil c xs)
  | cons p ps => exact ⟨p, ps, rfl, by rw [splitOn, if_neg h, hs]⟩

theorem joinWith_cons (sep a : List Char) {l : List (List Char)} (h : l ≠ []) :
    joinWith sep (a :: l) = a ++ sep ++ joinWith sep l := by
  cases l with
  | nil => exact absurd rfl h
  | cons b r => rw [joinWith]

theorem join_splitOn (c : Char) (s : List Char) : joinWith [c] (splitOn c s) = s := by
  induction s with
  | nil => rfl
  | cons x xs ih =>
    by_cases hx : x = c
    · rw [splitOn, if_pos hx, joinWith_cons _ _ (splitOn_ne_nil c xs), ih, hx]; rfl
    · obtain ⟨p, ps, h1, h2⟩ := splitOn_cons_of_ne hx xs
      rw [h2]
      rw [h1] at ih
      cases ps with
      | nil => simp only [joinWith] at ih ⊢; rw [ih]
      | cons q qs =>
        rw [joinWith_cons _ _ (by simp)] at ih ⊢
        rw [List.cons_append, List.cons_append, ih]

theorem splitOn_not_mem (c : Char) (s : List Char) : ∀ p ∈ splitOn c s, c ∉ p := by
  induction s with
  | nil => intro p hp; simp [splitOn] at hp; subst hp; simp
  | cons x xs ih =>
    by_cases hx : x = c
    · rw [splitOn, if_pos hx]
      intro p hp
      rcases List.mem_cons.mp hp with rfl | hp
      · simp
      · exact ih p hp
    · obtain ⟨q, ps, h1, h2⟩ := splitOn_cons_of_ne hx xs
      rw [h2]; rw [h1] at ih
      intro p hp
      rcases List.mem_cons.mp hp with rfl | hp
      · simp only [List.mem_cons, not_or]
        exact ⟨Ne.symm hx, ih q (by simp)⟩
      · exact ih p (by simp [hp])

theorem splitOn_of_not_mem {c : Char} {s : List Char} (h : c ∉ s) : splitOn c s = [s] := by
  induction s with
  | nil => rfl
  | cons x xs ih =>
    simp only [List.mem_cons, not_or] at h
    rw [splitOn, if_neg (Ne.symm h.1), ih h.2]

theorem splitOn_append_sep {c : Char} {a : List Char} (h : c ∉ a) (b : List Char) :
    splitOn c (a ++ c :: b) = a :: splitOn c b := by
  induction a with
  | nil => simp [splitOn]
  | cons x xs ih =>
    simp only [List.mem_cons, not_or] at h
    rw [List.cons_append, splitOn, if_neg (Ne.symm h.1), ih h.2]

theorem splitOn_join {c : Char} {l : List (List Char)} (h0 : l ≠ []) (h : ∀ p ∈ l, c ∉ p) :
    splitOn c (joinWith [c] l) = l := by
  induction l with
  | nil => exact absurd rfl h0
  | cons a r ih =>
    cases r with
    | nil => exact splitOn_of_not_mem (h a (by simp))
    | cons b r =>
      rw [joinWith_cons _ _ (by simp), List.append_assoc, List.singleton_append,
        splitOn_append_sep (h a (by simp)), ih (by simp) (fun p hp => h p (by simp [hp]))]

theorem mem_splitOn_subset {c : Char} {s p : List Char} (h : p ∈ splitOn c s) {x : Char} (hx : x ∈ p) :
    x ∈ s := by
  induction s generalizing p with
  | nil => simp [splitOn] at h; subst h; exact hx
  | cons y ys ih =>
    by_cases hy : y = c
    · rw [splitOn, if_pos hy] at h
      rcases List.mem_cons.mp h with rfl | h
      · simp at hx
      · simp [ih h hx]
    · obtain ⟨q, ps, h1, h2⟩ := splitOn_cons_of_ne hy ys
      rw [h2] at h
      rcases List.mem_cons.mp h with rfl | h
      · rcases List.mem_cons.mp hx with rfl | hx
        · simp
        · simp [ih (p := q) (by rw [h1]; simp) hx]
      · simp [ih (p := p) (by rw [h1]; simp [h]) hx]

end Hongdown
