import Verif.Lemmas.Wrap

namespace Hongdown
open Model Spec

/-! ## Sublists of token lists -/

theorem TokList.left {a b : List Tok} (h : TokList (a ++ b)) : TokList a := by
  have hd : ∀ p ∈ a.dropLast, p ∈ (a ++ b).dropLast := by
    intro p hp
    by_cases hb : b = []
    · subst hb; simpa using hp
    · rw [List.dropLast_append_of_ne_nil hb]
      exact List.mem_append_left _ (List.dropLast_subset _ hp)
  exact ⟨fun p hp => h.ne p (by simp [hp]), fun p hp => h.bare p (by simp [hp]),
    fun p hp => h.fin p (hd p hp), fun p hp => h.sp p (hd p hp), fun p hp => h.spaces p (by simp [hp])⟩

theorem TokList.right {a b : List Tok} (h : TokList (a ++ b)) : TokList b := by
  have := h.drop a.length
  simpa using this

theorem TokList.group {gs : List (List Tok)} (h : TokList gs.flatten) {g : List Tok} (hg : g ∈ gs) :
    TokList g := by
  obtain ⟨a, b, rfl⟩ := List.append_of_mem hg
  rw [List.flatten_append, List.flatten_cons] at h
  exact h.right.left

theorem words_tokText {ts : List Tok} (h : TokList ts) : words (tokText ts) = ts.flatMap (words ·.1) := by
  induction ts with
  | nil => rfl
  | cons t ts ih =>
    rw [tokText_cons, List.flatMap_cons, ← ih h.tail]
    have hs : ∀ c ∈ t.2, isSep c := fun c hc => by rw [h.spaces t (by simp) c hc]; exact isSep_space
    by_cases h2 : t.2 = []
    · have : ts = [] := by
        cases ts with
        | nil => rfl
        | cons u us => exact absurd h2 (h.sp t (by simp))
      subst this; simp [h2, words_nil]
    · rw [words_append_seps_mid hs h2]

theorem words_groups {gs : List (List Tok)} (h : TokList gs.flatten) :
    (gs.map tokText).flatMap words = words (tokText gs.flatten) := by
  rw [words_tokText h, List.flatMap_map]
  induction gs with
  | nil => rfl
  | cons g gs ih =>
    have h' := h
    rw [List.flatten_cons] at h'
    rw [List.flatMap_cons, List.flatten_cons, List.flatMap_append, ih h'.right, words_tokText h'.left]

theorem visible_flatten (ls : List (List Char)) : visible ls.flatten = ls.flatMap visible := by
  induction ls with
  | nil => rfl
  | cons a r ih => rw [List.flatten_cons, visible_append, ih, List.flatMap_cons]

theorem tokText_flatten (gs : List (List Tok)) : tokText gs.flatten = (gs.map tokText).flatten := by
  induction gs with
  | nil => rfl
  | cons g gs ih => simp [ih]

/-! ## Characters -/

theorem tokenize_chars {Q : Char → Prop} {text : List Char} (h : ∀ c ∈ text, Q c) :
    ∀ c ∈ tokText (tokenize text), Q c := by
  have key : ∀ (text : List Char), (∀ c ∈ text, Q c) → ∀ t : TokSt, (∀ c ∈ tokRead t, Q c) →
      ∀ c ∈ tokRead (text.foldl tokStep t), Q c := by
    intro text
    induction text with
    | nil => intro _ t ht; exact ht
    | cons x xs ih =>
      intro hx t ht
      refine ih (fun c hc => hx c (by simp [hc])) _ ?_
      have hxq := hx x (by simp)
      have hfl := tokFlush_read t
      have push : ∀ t' : TokSt, tokRead t' = tokRead t → ∀ b d,
          ∀ c ∈ tokRead { t' with token := t'.token ++ [x], inTicks := b, depth := d }, Q c := by
        intro t' he b d c hc
        simp only [tokRead, List.mem_append, List.mem_singleton] at hc
        have : c ∈ tokRead t' ∨ c = x := by
          simp only [tokRead, List.mem_append]
          rcases hc with (hc | hc | hc) | hc
          · exact Or.inl (Or.inl (Or.inl hc))
          · exact Or.inl (Or.inl (Or.inr hc))
          · exact Or.inr hc
          · exact Or.inl (Or.inr hc)
        rcases this with h1 | h1
        · rw [he] at h1; exact ht c h1
        · rw [h1]; exact hxq
      unfold tokStep
      split
      · split
        · exact push t rfl _ _
        · exact push _ hfl _ _
      · split
        · exact push t rfl _ _
        · split
          · simp only []
            split
            · exact push _ hfl _ _
            · exact push t rfl _ _
          · split
            · exact push t rfl _ _
            · split
              · exact push t rfl _ _
              · split
                · intro c hc
                  simp only [tokRead, ← List.append_assoc] at hc
                  rcases List.mem_append.mp hc with h1 | h1
                  · exact ht c h1
                  · simp at h1; rw [h1]; exact hxq
                · exact push _ hfl _ _
  intro c hc
  have hk := key text h tokInit (by simp [tokRead, tokInit, tokText])
  apply hk c
  unfold tokenize tokFinal at hc
  unfold tokRead
  split at hc
  · simp at hc ⊢; rcases hc with hc | hc
    · exact Or.inl hc
    · exact Or.inr (Or.inl hc)
  · simp; exact Or.inl hc

/-! ## Split and join again -/

theorem splitOn_append_cons (c : Char) (a b : List Char) :
    splitOn c (a ++ c :: b) = splitOn c a ++ splitOn c b := by
  induction a with
  | nil => simp [splitOn]
  | cons x xs ih =>
    by_cases hx : x = c
    · rw [List.cons_append, splitOn, if_pos hx, ih, splitOn, if_pos hx, List.cons_append]
    · obtain ⟨p, ps, h1, h2⟩ := splitOn_cons_of_ne hx xs
      rw [List.cons_append, splitOn, if_neg hx, ih, h1, h2]; rfl

theorem splitOn_length_ne {c : Char} {s : List Char} (h : c ∈ s) : ¬ (splitOn c s).length = 1 := by
  obtain ⟨a, b, rfl⟩ := List.append_of_mem h
  rw [splitOn_append_cons, List.length_append]
  have h1 := List.length_pos_iff.mpr (splitOn_ne_nil c a)
  have h2 := List.length_pos_iff.mpr (splitOn_ne_nil c b)
  omega

/-- Splitting a joined list of texts splits each of them. -/
theorem splitOn_join_flat {c : Char} {l : List (List Char)} (h0 : l ≠ []) :
    splitOn c (joinWith [c] l) = l.flatMap (splitOn c) := by
  induction l with
  | nil => exact absurd rfl h0
  | cons a r ih =>
    cases r with
    | nil => simp [joinWith]
    | cons b r =>
      rw [joinWith_cons _ _ (by simp), List.append_assoc, List.singleton_append,
        splitOn_append_cons, ih (by simp), List.flatMap_cons (x := a)]

theorem splitOn_append_right {c : Char} {t : List Char} (h : c ∉ t) (a : List Char) :
    ∃ i l, splitOn c a = i ++ [l] ∧ splitOn c (a ++ t) = i ++ [l ++ t] := by
  induction a with
  | nil => exact ⟨[], [], rfl, by simp [splitOn_of_not_mem h]⟩
  | cons x xs ih =>
    obtain ⟨i, l, h1, h2⟩ := ih
    by_cases hx : x = c
    · exact ⟨[] :: i, l, by rw [splitOn, if_pos hx, h1]; rfl, by
        rw [List.cons_append, splitOn, if_pos hx, h2]; rfl⟩
    · cases i with
      | nil => exact ⟨[], x :: l, by rw [splitOn, if_neg hx, h1]; rfl, by
          rw [List.cons_append, splitOn, if_neg hx, h2]; rfl⟩
      | cons p ps => exact ⟨(x :: p) :: ps, l, by rw [splitOn, if_neg hx, h1]; rfl, by
          rw [List.cons_append, splitOn, if_neg hx, h2]; rfl⟩

/-- Spaces at the end of the last line do not count. -/
theorem splitOn_trailing {t : List Char} (h : ∀ c ∈ t, isWs c = true) (hn : '\n' ∉ t) (a : List Char) :
    (splitOn '\n' (a ++ t)).map trimEnd = (splitOn '\n' a).map trimEnd := by
  obtain ⟨i, l, h1, h2⟩ := splitOn_append_right hn a
  rw [h1, h2]
  simp [trimEnd_append_ws h]

/-! ## One segment -/

theorem rawLines_eq_layout (fp pfx : List Char) (gs : List (List Tok)) :
    rawLines fp pfx gs = layout fp pfx (gs.map tokText) := by
  cases gs with
  | nil => rfl
  | cons g gs => simp [rawLines, layout]

theorem layout_mem {fp pfx : List Char} {cs : List (List Char)} {l : List Char}
    (h : l ∈ layout fp pfx cs) : ∃ c ∈ cs, l = fp ++ c ∨ l = pfx ++ c := by
  cases cs with
  | nil => simp [layout] at h
  | cons a r =>
    simp only [layout, List.mem_cons, List.mem_map] at h
    rcases h with h | ⟨b, hb, h⟩
    · exact ⟨a, by simp, Or.inl h⟩
    · exact ⟨b, by simp [hb], Or.inr h.symm⟩

theorem layout_ne_nil {fp pfx : List Char} {cs : List (List Char)} (h : cs ≠ []) :
    layout fp pfx cs ≠ [] := by
  cases cs with
  | nil => exact absurd rfl h
  | cons _ _ => simp [layout]

theorem trimEnd_idem (s : List Char) : trimEnd (trimEnd s) = trimEnd s :=
  trimEnd_of_getLast (trimEnd_getLast s)

theorem trimEnd_subset {s : List Char} {c : Char} (h : c ∈ trimEnd s) : c ∈ s := by
  obtain ⟨t, _, e⟩ := trimEnd_append s
  rw [e]; simp [h]

/-- The lines of a wrapped single segment. -/
theorem wrapSingle_lines (w : List Char → Nat) {text fp pfx : List Char} (lw : Nat)
    (hf : '\n' ∉ fp) (hp : '\n' ∉ pfx) (ht : '\n' ∉ text) :
    splitOn '\n' (wrapSingle w text fp pfx lw) =
      (layout fp pfx ((groups w fp pfx lw (tokenize text)).map tokText)).map trimEnd := by
  rw [wrapSingle_eq, rawLines_eq_layout]
  apply splitOn_join
  · simp only [ne_eq, List.map_eq_nil_iff]
    apply layout_ne_nil
    simp [groups_ne_nil]
  · intro p hp' hn
    obtain ⟨l, hl, rfl⟩ := List.mem_map.mp hp'
    have hn := trimEnd_subset hn
    obtain ⟨c, hc, h⟩ := layout_mem hl
    obtain ⟨g, hg, rfl⟩ := List.mem_map.mp hc
    have : '\n' ∈ tokText g := by
      rcases h with h | h <;> rw [h] at hn <;> rcases List.mem_append.mp hn with h1 | h1
      · exact absurd h1 hf
      · exact h1
      · exact absurd h1 hp
      · exact h1
    have hfl : '\n' ∈ tokText (tokenize text) := by
      rw [← groups_flatten w fp pfx lw (tokenize text), tokText_flatten]
      exact List.mem_flatten.mpr ⟨_, List.mem_map.mpr ⟨g, hg, rfl⟩, this⟩
    exact tokenize_chars (Q := (· ≠ '\n')) (fun c hc he => ht (he ▸ hc)) _ hfl rfl

theorem words_tokenize {text : List Char} (h : text.head? ≠ some ' ') :
    words (tokText (tokenize text)) = words text := by
  obtain ⟨sp, hsp, e⟩ := tokenize_text h
  conv => rhs; rw [e]
  rw [words_append_seps]
  intro c hc; rw [hsp c hc]; exact isSep_space

theorem groups_words (w fp pfx lw) {text : List Char} (h : text.head? ≠ some ' ') :
    ((groups w fp pfx lw (tokenize text)).map tokText).flatMap words = words text := by
  have hg := groups_flatten w fp pfx lw (tokenize text)
  rw [words_groups (by rw [hg]; exact tokList_tokenize text), hg, words_tokenize h]

theorem groups_visible (w fp pfx lw) (text : List Char) :
    ((groups w fp pfx lw (tokenize text)).map tokText).flatMap visible = visible text := by
  have hg := groups_flatten w fp pfx lw (tokenize text)
  rw [← visible_flatten, ← tokText_flatten, hg, visible_tokenize]

/-! ## Soft lines -/

/-- The pieces which `wrapLines` puts on lines of their own. -/
def bodyLines (w : List Char → Nat) (pfx : List Char) (lw : Nat) :
    List Char → List (List Char) → List (List Char)
  | _, [] => []
  | cur, l :: rest =>
    if w cur + w (trim l) ≤ lw then (cur ++ trim l) :: bodyLines w pfx lw pfx rest
    else [wrapSingle w (mergeLines (trim l) rest) cur pfx lw]

theorem bodyLines_ne_nil (w pfx lw cur) {ls : List (List Char)} (h : ls ≠ []) :
    bodyLines w pfx lw cur ls ≠ [] := by
  cases ls with
  | nil => exact absurd rfl h
  | cons l r => rw [bodyLines]; split <;> simp

theorem wrapLines_body (w : List Char → Nat) (pfx : List Char) (lw : Nat) :
    ∀ (ls : List (List Char)), (∀ l ∈ ls, trim l ≠ []) → ls ≠ [] → ∀ result cur : List Char,
      wrapLines w pfx lw result cur ls =
        result ++ (if result = [] then [] else ['\n']) ++ joinWith ['\n'] (bodyLines w pfx lw cur ls) := by
  intro ls
  induction ls with
  | nil => intro _ h; exact absurd rfl h
  | cons l rest ih =>
    intro hb _ result cur
    rw [wrapLines, bodyLines]
    split
    · cases rest with
      | nil => simp [wrapLines, bodyLines, joinWith]
      | cons m rest =>
        rw [ih (fun l hl => hb l (by simp [hl])) (by simp), joinWith_cons _ _ (bodyLines_ne_nil _ _ _ _ (by simp))]
        have hne : ¬ (result ++ (if result = [] then [] else ['\n']) ++ cur ++ trim l = []) := by
          have := hb l (by simp)
          simp [this]
        rw [if_neg hne]
        simp
    · simp [joinWith]

theorem mergeLines_eq (l : List Char) (rest : List (List Char)) :
    mergeLines l rest = l ++ rest.flatMap fun m => ' ' :: trim m := by
  unfold mergeLines
  induction rest generalizing l with
  | nil => simp
  | cons m rest ih => rw [List.foldl_cons, ih]; simp

theorem words_merge (l : List Char) (rest : List (List Char)) :
    words (mergeLines l rest) = words l ++ rest.flatMap words := by
  rw [mergeLines_eq]
  induction rest generalizing l with
  | nil => simp
  | cons m rest ih =>
    rw [List.flatMap_cons, List.flatMap_cons]
    have := ih (l ++ ' ' :: trim m)
    rw [words_append_sep _ isSep_space, words_trim] at this
    rw [← List.append_assoc, this, List.append_assoc]

theorem visible_merge (l : List Char) (rest : List (List Char)) :
    visible (mergeLines l rest) = visible l ++ rest.flatMap visible := by
  rw [mergeLines_eq]
  induction rest generalizing l with
  | nil => simp
  | cons m rest ih =>
    rw [List.flatMap_cons, List.flatMap_cons]
    have := ih (l ++ ' ' :: trim m)
    have e : visible (' ' :: trim m) = visible m := by
      rw [show ' ' :: trim m = [' '] ++ trim m from rfl, visible_append, visible_trim,
        visible_ws (by decide)]; rfl
    rw [visible_append l, e] at this
    rw [← List.append_assoc, this, List.append_assoc]

theorem words_splitOn {c : Char} (h : isSep c) (s : List Char) : (splitOn c s).flatMap words = words s := by
  have key : ∀ l : List (List Char), l ≠ [] → words (joinWith [c] l) = l.flatMap words := by
    intro l
    induction l with
    | nil => intro h; exact absurd rfl h
    | cons a r ih =>
      intro _
      cases r with
      | nil => simp [joinWith]
      | cons b r =>
        rw [joinWith_cons _ _ (by simp), List.append_assoc, List.singleton_append,
          words_append_sep _ h, ih (by simp), List.flatMap_cons (x := a)]
  rw [← key _ (splitOn_ne_nil c s), join_splitOn]

theorem visible_splitOn {c : Char} (h : isSep c) (s : List Char) :
    (splitOn c s).flatMap visible = visible s := by
  have hc : visible [c] = [] := by
    rcases h with h | h
    · exact visible_ws (by simpa using h)
    · subst h; decide
  have key : ∀ l : List (List Char), l ≠ [] → visible (joinWith [c] l) = l.flatMap visible := by
    intro l
    induction l with
    | nil => intro h; exact absurd rfl h
    | cons a r ih =>
      intro _
      cases r with
      | nil => simp [joinWith]
      | cons b r =>
        rw [joinWith_cons _ _ (by simp), visible_append, visible_append, hc, List.append_nil,
          ih (by simp), List.flatMap_cons (x := a)]
  rw [← key _ (splitOn_ne_nil c s), join_splitOn]

theorem trim_subset {s : List Char} {c : Char} (h : c ∈ trim s) : c ∈ s := by
  obtain ⟨a, b, _, _, e⟩ := trim_append s
  rw [e]; simp [h]

theorem mergeLines_no_nl {l : List Char} {rest : List (List Char)} (hl : '\n' ∉ l)
    (hr : ∀ m ∈ rest, '\n' ∉ m) : '\n' ∉ mergeLines l rest := by
  rw [mergeLines_eq, List.mem_append, not_or]
  refine ⟨hl, ?_⟩
  intro h
  obtain ⟨m, hm, h⟩ := List.mem_flatMap.mp h
  simp only [List.mem_cons] at h
  rcases h with h | h
  · exact absurd h (by decide)
  · exact hr m hm (trim_subset h)

theorem mergeLines_head {l : List Char} (rest : List (List Char)) (h : trim l ≠ []) :
    (mergeLines (trim l) rest).head? ≠ some ' ' := by
  rw [mergeLines_eq]
  have := trim_head l
  cases ht : trim l with
  | nil => exact absurd ht h
  | cons c cs =>
    rw [ht] at this
    have := this c rfl
    simp only [List.cons_append, List.head?_cons, ne_eq, Option.some.injEq]
    intro hc; subst hc; exact absurd this (by decide)

/-- `body` lines: contents under prefixes, same words. -/
theorem bodyLines_layout (w : List Char → Nat) {pfx : List Char} (lw : Nat) (hp : '\n' ∉ pfx) :
    ∀ (ls : List (List Char)), (∀ l ∈ ls, trim l ≠ []) → (∀ l ∈ ls, '\n' ∉ l) → ls ≠ [] →
    ∀ cur : List Char, '\n' ∉ cur →
    ∃ cs, (splitOn '\n' (joinWith ['\n'] (bodyLines w pfx lw cur ls))).map trimEnd =
      (layout cur pfx cs).map trimEnd ∧ cs.flatMap words = ls.flatMap words ∧
      cs.flatMap visible = ls.flatMap visible := by
  intro ls
  induction ls with
  | nil => intro _ _ h; exact absurd rfl h
  | cons l rest ih =>
    intro hb hn _ cur hc
    rw [bodyLines]
    split
    · have hl : '\n' ∉ cur ++ trim l := by
        rw [List.mem_append, not_or]
        exact ⟨hc, fun h => hn l (by simp) (trim_subset h)⟩
      cases rest with
      | nil =>
        refine ⟨[trim l], ?_, ?_, ?_⟩
        · simp [bodyLines, joinWith, layout, splitOn_of_not_mem hl]
        · simp [words_trim]
        · simp [visible_trim]
      | cons m rest =>
        obtain ⟨cs, h1, h2, h3⟩ := ih (fun l hl => hb l (by simp [hl])) (fun l hl => hn l (by simp [hl]))
          (by simp) pfx hp
        refine ⟨trim l :: cs, ?_, ?_, ?_⟩
        · rw [joinWith_cons _ _ (bodyLines_ne_nil _ _ _ _ (by simp)), List.append_assoc,
            List.singleton_append, splitOn_append_sep hl, List.map_cons, h1]
          have : layout pfx pfx cs = cs.map (pfx ++ ·) := by cases cs <;> simp [layout]
          rw [this, layout, List.map_cons]
        · rw [List.flatMap_cons, h2, words_trim, List.flatMap_cons (x := l)]
        · rw [List.flatMap_cons, h3, visible_trim, List.flatMap_cons (x := l)]
    · refine ⟨(groups w cur pfx lw (tokenize (mergeLines (trim l) rest))).map tokText, ?_, ?_, ?_⟩
      · have hm : '\n' ∉ mergeLines (trim l) rest :=
          mergeLines_no_nl (fun h => hn l (by simp) (trim_subset h)) (fun m hm => hn m (by simp [hm]))
        rw [joinWith, wrapSingle_lines w lw hc hp hm, List.map_map]
        congr 1
        funext x; exact trimEnd_idem x
      · rw [groups_words _ _ _ _ (mergeLines_head rest (hb l (by simp))), words_merge, words_trim,
          List.flatMap_cons]
      · rw [groups_visible, visible_merge, visible_trim, List.flatMap_cons]

/-- One hard-break-free segment. -/
theorem wrapSegment_layout (w : List Char → Nat) {text fp pfx : List Char} (lw : Nat)
    (hf : '\n' ∉ fp) (hp : '\n' ∉ pfx) (ht : '\n' ∉ text) (hs : SoftOk text) :
    ∃ cs, (splitOn '\n' (wrapSegment w text fp pfx lw)).map trimEnd = (layout fp pfx cs).map trimEnd ∧
      cs.flatMap words = words text ∧ cs.flatMap visible = visible text := by
  by_cases hmem : '\x00' ∈ text
  · have hb : ∀ l ∈ splitOn nul text, trim l ≠ [] := by
      rw [SoftOk, if_pos hmem] at hs; exact hs
    have hlen : ¬ (splitOn nul text).length = 1 := splitOn_length_ne hmem
    obtain ⟨cs, h1, h2, h3⟩ := bodyLines_layout w lw hp (splitOn nul text) hb
      (fun l hl hn => ht (mem_splitOn_subset hl hn)) (splitOn_ne_nil _ _) fp hf
    refine ⟨cs, ?_, ?_, ?_⟩
    · rw [wrapSegment]
      simp only [hlen, if_false]
      rw [wrapLines_body w pfx lw _ hb (splitOn_ne_nil _ _)]
      simpa using h1
    · rw [h2]; exact words_splitOn isSep_nul _
    · rw [h3]; exact visible_splitOn isSep_nul _
  · rw [SoftOk, if_neg hmem] at hs
    refine ⟨(groups w fp pfx lw (tokenize text)).map tokText, ?_, groups_words _ _ _ _ hs, groups_visible ..⟩
    rw [wrapSegment, if_pos (by rw [show splitOn nul text = [text] from splitOn_of_not_mem hmem]; rfl)]
    rw [wrapSingle_lines w lw hf hp ht, List.map_map]
    congr 1; funext x; exact trimEnd_idem x

/-! ## Widths -/

theorem Spec.WidthOk.append {w : List Char → Nat} (hw : WidthOk w) {a : List Char} (h : PfxOk a)
    (b : List Char) : w (a ++ b) = w a + w b := by
  rcases h with h | h
  · subst h; simp [hw.nil]
  · obtain ⟨i, rfl⟩ : ∃ i, a = i ++ [' '] := by
      have hne : a ≠ [] := by rintro rfl; simp at h
      refine ⟨a.dropLast, ?_⟩
      have h1 := List.dropLast_concat_getLast hne
      rw [List.getLast?_eq_some_getLast hne, Option.some.injEq] at h
      rw [h] at h1; exact h1.symm
    rw [List.append_assoc, List.singleton_append, hw.space, hw.space, hw.nil]

theorem Spec.WidthOk.spaces {w : List Char → Nat} (hw : WidthOk w) (a : List Char) {sp : List Char}
    (h : ∀ c ∈ sp, c = ' ') : w (a ++ sp) = w a + sp.length := by
  induction sp generalizing a with
  | nil => simp
  | cons c cs ih =>
    have hc := h c (by simp); subst hc
    have := ih (a ++ [' ']) (fun d hd => h d (by simp [hd]))
    rw [List.append_assoc, List.singleton_append] at this
    rw [this, hw.space, hw.nil, List.length_cons]; omega

theorem pfxOk_append {a b : List Char} (h : PfxOk a) (hb : PfxOk b) : PfxOk (a ++ b) := by
  rcases hb with hb | hb
  · subst hb; simpa using h
  · right; rw [List.getLast?_append, hb]; rfl

theorem pfxOk_spaces {a sp : List Char} (h : ∀ c ∈ sp, c = ' ') (hne : sp ≠ []) : PfxOk (a ++ sp) := by
  right
  rw [List.getLast?_append, List.getLast?_eq_some_getLast hne, h _ (List.getLast_mem hne)]; rfl

theorem tokText_pfxOk {ts : List Tok} (h1 : ∀ p ∈ ts, p.2 ≠ []) (h2 : ∀ p ∈ ts, ∀ c ∈ p.2, c = ' ') :
    PfxOk (tokText ts) := by
  induction ts with
  | nil => exact Or.inl rfl
  | cons t ts ih =>
    rw [tokText_cons]
    exact pfxOk_append (pfxOk_spaces (h2 t (by simp)) (h1 t (by simp)))
      (ih (fun p hp => h1 p (by simp [hp])) (fun p hp => h2 p (by simp [hp])))

/-- A line in the making: all of its tokens are followed by spaces. -/
structure GrpOk (g : Grp) : Prop where
  ne : ∀ p ∈ g.2, p.2 ≠ []
  sp : ∀ p ∈ g.2, ∀ c ∈ p.2, c = ' '

theorem grpLine_pfxOk {fp pfx : List Char} (hf : PfxOk fp) (hp : PfxOk pfx) {g : Grp} (h : GrpOk g) :
    PfxOk (grpLine fp pfx g) := by
  apply pfxOk_append
  · unfold curPfx; split <;> assumption
  · exact tokText_pfxOk h.ne h.sp

theorem curPfx_pfxOk {fp pfx : List Char} (hf : PfxOk fp) (hp : PfxOk pfx) (d : List (List Tok)) :
    PfxOk (curPfx fp pfx d) := by
  unfold curPfx; split <;> assumption

/-- Only a line without tokens has the width of its prefix. -/
theorem grpLine_width {w : List Char → Nat} (hw : WidthOk w) {fp pfx : List Char} (hf : PfxOk fp)
    (hp : PfxOk pfx) {g : Grp} (h : GrpOk g) :
    w (grpLine fp pfx g) = w (curPfx fp pfx g.1) ↔ g.2 = [] := by
  unfold grpLine
  rw [hw.append (curPfx_pfxOk hf hp _)]
  constructor
  · intro he
    cases hg : g.2 with
    | nil => rfl
    | cons t ts =>
      exfalso
      have h1 := h.ne t (by rw [hg]; simp)
      have h2 := h.sp t (by rw [hg]; simp)
      rw [hg, tokText_cons, hw.append (pfxOk_spaces h2 h1), hw.spaces _ h2] at he
      have := List.length_pos_iff.mpr h1
      omega
  · intro he; rw [he, tokText_nil, hw.nil]; rfl

/-- What a finished layout satisfies: every line fits or has one token. -/
def LineFits (w : List Char → Nat) (fp pfx : List Char) (lw : Nat) (g : Grp) : Prop :=
  w (grpLine fp pfx g) ≤ lw ∨ g.2.length ≤ 1

theorem grpStep_fits {w : List Char → Nat} (hw : WidthOk w) {fp pfx : List Char} (hf : PfxOk fp)
    (hp : PfxOk pfx) {lw : Nat} {g : Grp} (h : GrpOk g) {t : Tok} (ht : ∀ c ∈ t.2, c = ' ') :
    LineFits w fp pfx lw (grpStep w fp pfx lw g t) := by
  unfold grpStep
  split
  · next hc =>
    rw [grpLine_width hw hf hp h] at hc
    rcases hc with hc | hc
    · right; simp [hc]
    · left
      have : grpLine fp pfx (g.1, g.2 ++ [t]) = grpLine fp pfx g ++ (t.1 ++ t.2) := by simp [grpLine]
      rw [this, hw.append (grpLine_pfxOk hf hp h), hw.spaces _ ht]; omega
  · right; simp

theorem grpStep_ok {w : List Char → Nat} {fp pfx : List Char} {lw : Nat} {g : Grp} (h : GrpOk g) {t : Tok}
    (ht : ∀ c ∈ t.2, c = ' ') (hne : t.2 ≠ []) : GrpOk (grpStep w fp pfx lw g t) := by
  unfold grpStep
  split
  · constructor
    · intro p hp
      rcases List.mem_append.mp hp with h1 | h1
      · exact h.ne p h1
      · simp at h1; rw [h1]; exact hne
    · intro p hp
      rcases List.mem_append.mp hp with h1 | h1
      · exact h.sp p h1
      · simp at h1; rw [h1]; exact ht
  · constructor <;> (intro p hp; simp at hp; subst hp; assumption)

/-- All finished lines fit, seen from a state in which they do. -/
theorem grpFold_fits {w : List Char → Nat} (hw : WidthOk w) {fp pfx : List Char} (hf : PfxOk fp)
    (hp : PfxOk pfx) {lw : Nat} (ts : List Tok) :
    (∀ p ∈ ts.dropLast, p.2 ≠ []) → (∀ p ∈ ts, ∀ c ∈ p.2, c = ' ') →
    ∀ g : Grp, GrpOk g → LineFits w fp pfx lw g →
    (∀ a b c, g.1 = a ++ b :: c → LineFits w fp pfx lw (a, b)) →
    (∀ a b c, (grpFold w fp pfx lw g ts).1 ++ [(grpFold w fp pfx lw g ts).2] = a ++ b :: c →
      LineFits w fp pfx lw (a, b)) := by
  induction ts with
  | nil =>
    intro _ _ g _ h1 h2 a b c he
    simp only [grpFold, List.foldl_nil] at he
    rcases List.append_eq_append_iff.mp he with ⟨x, h3, h4⟩ | ⟨x, h3, h4⟩
    · cases x with
      | nil =>
        simp only [List.nil_append, List.cons.injEq] at h4
        rw [h3, ← h4.1, List.append_nil]; exact h1
      | cons y ys => simp at h4
    · cases x with
      | nil =>
        simp only [List.nil_append, List.cons.injEq] at h4
        rw [List.append_nil] at h3
        rw [← h3, h4.1]; exact h1
      | cons y ys =>
        rw [List.cons_append, List.cons.injEq] at h4
        exact h2 a b ys (by rw [h3, h4.1])
  | cons t ts ih =>
    intro hsp hs g hg h1 h2
    have ht := hs t (by simp)
    have hfit := grpStep_fits hw hf hp (lw := lw) hg ht
    have hdone : ∀ a b c, (grpStep w fp pfx lw g t).1 = a ++ b :: c → LineFits w fp pfx lw (a, b) := by
      intro a b c he
      unfold grpStep at he
      split at he
      · exact h2 a b c he
      · simp only [] at he
        rcases List.append_eq_append_iff.mp he with ⟨x, h3, h4⟩ | ⟨x, h3, h4⟩
        · cases x with
          | nil =>
            simp only [List.nil_append, List.cons.injEq] at h4
            rw [h3, ← h4.1, List.append_nil]; exact h1
          | cons y ys => simp at h4
        · cases x with
          | nil =>
            simp only [List.nil_append, List.cons.injEq] at h4
            rw [List.append_nil] at h3
            rw [← h3, h4.1]; exact h1
          | cons y ys =>
            rw [List.cons_append, List.cons.injEq] at h4
            exact h2 a b ys (by rw [h3, h4.1])
    show ∀ a b c, (grpFold w fp pfx lw (grpStep w fp pfx lw g t) ts).1 ++
      [(grpFold w fp pfx lw (grpStep w fp pfx lw g t) ts).2] = a ++ b :: c → _
    by_cases hts : ts = []
    · subst hts
      intro a b c he
      simp only [grpFold, List.foldl_nil] at he
      rcases List.append_eq_append_iff.mp he with ⟨x, h3, h4⟩ | ⟨x, h3, h4⟩
      · cases x with
        | nil =>
          simp only [List.nil_append, List.cons.injEq] at h4
          rw [h3, ← h4.1, List.append_nil]; exact hfit
        | cons y ys => simp at h4
      · cases x with
        | nil =>
          simp only [List.nil_append, List.cons.injEq] at h4
          rw [List.append_nil] at h3
          rw [← h3, h4.1]; exact hfit
        | cons y ys =>
          rw [List.cons_append, List.cons.injEq] at h4
          exact hdone a b ys (by rw [h3, h4.1])
    · rw [List.dropLast_cons_of_ne_nil hts] at hsp
      exact ih (fun p hp => hsp p (by simp [hp])) (fun p hp => hs p (by simp [hp])) _
        (grpStep_ok hg ht (hsp t (by simp))) hfit hdone

theorem groups_fit {w : List Char → Nat} (hw : WidthOk w) {fp pfx : List Char} (hf : PfxOk fp)
    (hp : PfxOk pfx) (lw : Nat) {ts : List Tok} (ht : TokList ts) {a c : List (List Tok)} {b : List Tok}
    (he : groups w fp pfx lw ts = a ++ b :: c) :
    w (curPfx fp pfx a ++ tokText b) ≤ lw ∨ b.length ≤ 1 := by
  have := grpFold_fits hw hf hp (lw := lw) ts ht.sp ht.spaces ([], []) ⟨by simp, by simp⟩
    (Or.inr (by simp)) (by simp) a b c he
  exact this

theorem layout_mem_split {fp pfx : List Char} {gs : List (List Tok)} {l : List Char}
    (h : l ∈ layout fp pfx (gs.map tokText)) : ∃ a b c, gs = a ++ b :: c ∧ l = curPfx fp pfx a ++ tokText b := by
  cases gs with
  | nil => simp [layout] at h
  | cons g gs =>
    simp only [List.map_cons, layout, List.mem_cons, List.mem_map] at h
    rcases h with h | ⟨x, ⟨b, hb, rfl⟩, h⟩
    · exact ⟨[], g, gs, rfl, by simpa [curPfx] using h⟩
    · obtain ⟨s, t, rfl⟩ := List.append_of_mem hb
      exact ⟨g :: s, b, t, rfl, by simpa [curPfx] using h.symm⟩

/-- A line of a wrapped single segment fits or holds one unbreakable piece. -/
theorem wrapSingle_width {w : List Char → Nat} (hw : WidthOk w) {text fp pfx : List Char} (lw : Nat)
    (hf : PfxOk fp) (hp : PfxOk pfx) (hf' : '\n' ∉ fp) (hp' : '\n' ∉ pfx) (ht : '\n' ∉ text)
    {l : List Char} (hl : l ∈ splitOn '\n' (wrapSingle w text fp pfx lw)) :
    w l ≤ lw ∨ ∃ p u, (p = fp ∨ p = pfx) ∧ Unbreakable u ∧ l = trimEnd (p ++ u) := by
  rw [wrapSingle_lines w lw hf' hp' ht] at hl
  obtain ⟨r, hr, rfl⟩ := List.mem_map.mp hl
  obtain ⟨a, b, c, he, rfl⟩ := layout_mem_split hr
  have hT := tokList_tokenize text
  rcases groups_fit hw hf hp lw hT he with h | h
  · left; exact Nat.le_trans (hw.trim _) h
  · right
    have hpx : curPfx fp pfx a = fp ∨ curPfx fp pfx a = pfx := by unfold curPfx; split <;> simp
    have hb : ∀ t ∈ b, t ∈ tokenize text := by
      intro t ht
      rw [← groups_flatten w fp pfx lw (tokenize text), he]
      simp [ht]
    match b, h, hb with
    | [], _, _ => exact ⟨_, [], hpx, by simp [Unbreakable, bareGo], by simp⟩
    | [t], _, hb =>
      refine ⟨_, t.1, hpx, hT.bare t (hb t (by simp)), ?_⟩
      rw [tokText_cons, tokText_nil, List.append_nil, ← List.append_assoc, trimEnd_append_ws]
      intro c hc; rw [hT.spaces t (hb t (by simp)) c hc]; decide

theorem bodyLines_width {w : List Char → Nat} (hw : WidthOk w) {pfx : List Char} (lw : Nat)
    (hp : PfxOk pfx) (hp' : '\n' ∉ pfx) :
    ∀ (ls : List (List Char)), (∀ l ∈ ls, '\n' ∉ l) → ls ≠ [] →
    ∀ cur : List Char, PfxOk cur → '\n' ∉ cur →
    ∀ l ∈ splitOn '\n' (joinWith ['\n'] (bodyLines w pfx lw cur ls)),
      w l ≤ lw ∨ ∃ p u, (p = cur ∨ p = pfx) ∧ Unbreakable u ∧ l = trimEnd (p ++ u) := by
  intro ls
  induction ls with
  | nil => intro _ h; exact absurd rfl h
  | cons l rest ih =>
    intro hn _ cur hc hc'
    rw [bodyLines]
    split
    · next hfit =>
      have hl : '\n' ∉ cur ++ trim l := by
        rw [List.mem_append, not_or]
        exact ⟨hc', fun h => hn l (by simp) (trim_subset h)⟩
      have h1 : w (cur ++ trim l) ≤ lw := by rw [hw.append hc]; exact hfit
      cases rest with
      | nil =>
        intro x hx
        simp only [bodyLines, joinWith, splitOn_of_not_mem hl, List.mem_singleton] at hx
        left; rw [hx]; exact h1
      | cons m rest =>
        intro x hx
        rw [joinWith_cons _ _ (bodyLines_ne_nil _ _ _ _ (by simp)), List.append_assoc,
          List.singleton_append, splitOn_append_sep hl] at hx
        rcases List.mem_cons.mp hx with hx | hx
        · left; rw [hx]; exact h1
        · rcases ih (fun l hl => hn l (by simp [hl])) (by simp) pfx hp hp' x hx with h | ⟨p, u, h2, h3⟩
          · exact Or.inl h
          · exact Or.inr ⟨p, u, Or.inr (h2.elim id id), h3⟩
    · intro x hx
      have hm : '\n' ∉ mergeLines (trim l) rest :=
        mergeLines_no_nl (fun h => hn l (by simp) (trim_subset h)) (fun m hm => hn m (by simp [hm]))
      rw [joinWith] at hx
      exact wrapSingle_width hw lw hc hp hc' hp' hm hx

theorem wrapSegment_width {w : List Char → Nat} (hw : WidthOk w) {text fp pfx : List Char} (lw : Nat)
    (hf : PfxOk fp) (hp : PfxOk pfx) (hf' : '\n' ∉ fp) (hp' : '\n' ∉ pfx) (ht : '\n' ∉ text)
    (hs : SoftOk text) {l : List Char} (hl : l ∈ splitOn '\n' (wrapSegment w text fp pfx lw)) :
    w l ≤ lw ∨ ∃ p u, (p = fp ∨ p = pfx) ∧ Unbreakable u ∧ l = trimEnd (p ++ u) := by
  by_cases hmem : '\x00' ∈ text
  · have hb : ∀ l ∈ splitOn nul text, trim l ≠ [] := by
      rw [SoftOk, if_pos hmem] at hs; exact hs
    have hlen : ¬ (splitOn nul text).length = 1 := splitOn_length_ne hmem
    rw [wrapSegment, if_neg hlen, wrapLines_body w pfx lw _ hb (splitOn_ne_nil _ _)] at hl
    exact bodyLines_width hw lw hp hp' _ (fun l hl hn => ht (mem_splitOn_subset hl hn))
      (splitOn_ne_nil _ _) fp hf hf' l (by simpa using hl)
  · rw [wrapSegment, if_pos (by rw [show splitOn nul text = [text] from splitOn_of_not_mem hmem]; rfl)] at hl
    exact wrapSingle_width hw lw hf hp hf' hp' ht hl

end Hongdown
