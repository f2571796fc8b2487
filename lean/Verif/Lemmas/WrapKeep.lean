import Verif.Lemmas.WrapFits

/-!
# Text that fits is not wrapped
-/

namespace Hongdown
open Model Spec

/-- `fill` with a prefix of its own for the first line. -/
def fillFirst (w : List Char → Nat) (fp p : List Char) (lw : Nat) : List Tok → List Tok → List (List Tok)
  | cur, [] => [cur]
  | cur, t :: ts =>
    if w (fp ++ tokText cur) = w fp ∨ w (fp ++ tokText cur) + w t.1 + t.2.length ≤ lw then
      fillFirst w fp p lw (cur ++ [t]) ts
    else cur :: fill w p lw [t] ts

theorem grpFold_later (w fp p lw) (ts : List Tok) : ∀ g : Grp, g.1 ≠ [] →
    (grpFold w fp p lw g ts).1 ++ [(grpFold w fp p lw g ts).2] = g.1 ++ fill w p lw g.2 ts := by
  induction ts with
  | nil => intro g _; simp [grpFold, fill]
  | cons t ts ih =>
    intro g hg
    show (grpFold w fp p lw (grpStep w fp p lw g t) ts).1 ++
      [(grpFold w fp p lw (grpStep w fp p lw g t) ts).2] = _
    have e : curPfx fp p g.1 = p := by simp [curPfx, hg]
    have hs : (grpStep w fp p lw g t).1 ≠ [] := by unfold grpStep; split <;> simp [hg]
    rw [ih _ hs, fill]
    unfold grpStep grpLine
    simp only [e]
    split <;> simp

theorem grpFold_first (w fp p lw) (ts : List Tok) : ∀ cur : List Tok,
    (grpFold w fp p lw ([], cur) ts).1 ++ [(grpFold w fp p lw ([], cur) ts).2] = fillFirst w fp p lw cur ts := by
  induction ts with
  | nil => intro g; simp [grpFold, fillFirst]
  | cons t ts ih =>
    intro cur
    show (grpFold w fp p lw (grpStep w fp p lw ([], cur) t) ts).1 ++
      [(grpFold w fp p lw (grpStep w fp p lw ([], cur) t) ts).2] = _
    rw [fillFirst]
    unfold grpStep grpLine
    have e : curPfx fp p [] = fp := by simp [curPfx]
    simp only [e]
    split
    · exact ih _
    · rw [grpFold_later _ _ _ _ _ _ (by simp)]; simp

theorem groups_first (w fp p lw ts) : groups w fp p lw ts = fillFirst w fp p lw [] ts :=
  grpFold_first w fp p lw ts []

/-- The width of tokens. -/
def tokWidth (w : List Char → Nat) (ts : List Tok) : Nat := (ts.map fun t => w t.1 + t.2.length).sum

theorem width_trailing {w : List Char → Nat} (hw : WidthOk w) (a : List Char) : ∀ s : List Char, (∀ c ∈ s, c = ' ') → w (a ++ s) = w a + s.length
  | [], _ => by simp
  | c :: s, h => by
    have hs := width_trailing hw [] s (fun c hc => h c (by simp [hc]))
    rw [List.nil_append, hw.nil] at hs
    rw [h c (by simp), hw.space, hs]
    simp; omega

theorem width_tokText {w : List Char → Nat} (hw : WidthOk w) : ∀ ts : List Tok, TokList ts → w (tokText ts) = tokWidth w ts
  | [], _ => by simp [tokWidth, hw.nil]
  | t :: ts, h => by
    have hsp := width_trailing hw t.1 t.2 (h.spaces t (by simp))
    have ih := width_tokText hw ts h.tail
    rw [tokText_cons]
    by_cases h2 : t.2 = []
    · have : ts = [] := by
        cases ts with
        | nil => rfl
        | cons t' ts => exact absurd h2 (h.sp t (by simp))
      subst this
      simp [tokWidth, h2]
    · have hp : PfxOk (t.1 ++ t.2) := by
        right
        rw [List.getLast?_append]
        cases hl : t.2.getLast? with
        | none => exact absurd (List.getLast?_eq_none_iff.1 hl) h2
        | some c => rw [h.spaces t (by simp) c (List.mem_of_getLast? hl)]; rfl
      rw [hw.append hp, hsp, ih]
      simp [tokWidth]

theorem fillFirst_keep {w : List Char → Nat} (hw : WidthOk w) (p : List Char) {lw : Nat} : ∀ (ts cur : List Tok), TokList (cur ++ ts) →
    tokWidth w (cur ++ ts) ≤ lw → fillFirst w [] p lw cur ts = [cur ++ ts]
  | [], cur, _, _ => by simp [fillFirst]
  | t :: ts, cur, h, hl => by
    have e : cur ++ t :: ts = (cur ++ [t]) ++ ts := by simp
    have hc := width_tokText hw cur h.left
    rw [fillFirst, if_pos, fillFirst_keep hw p ts (cur ++ [t]) (e ▸ h) (e ▸ hl), e]
    right
    rw [List.nil_append, hc]
    simp only [tokWidth, List.map_append, List.map_cons, List.sum_append, List.sum_cons] at hl ⊢
    omega

/-- A line that fits is not broken. -/
theorem wrapSingle_keep {w : List Char → Nat} (hw : WidthOk w) (p : List Char) {lw : Nat} {l : List Char} (h : CleanLine l) (hl : w l ≤ lw) :
    wrapSingle w l [] p lw = l := by
  obtain ⟨hc, ht⟩ := clean_tokenize h
  have hwd := width_tokText hw _ hc.toTokList
  rw [ht] at hwd
  rw [wrapSingle_eq, groups_first, fillFirst_keep hw p _ [] (by simpa using hc.toTokList) (by simpa [← hwd] using hl)]
  simp only [rawLines, List.nil_append, List.map_cons, List.map_nil, joinWith, ht]
  calc trimEnd l = trimEnd (trim l) := by rw [h.trim]
    _ = trim l := trimEnd_idem _
    _ = l := h.trim

theorem fillFirst_keepAt {w : List Char → Nat} (hw : WidthOk w) {fp : List Char} (hp : PfxOk fp) (p : List Char) {lw : Nat} :
    ∀ (ts cur : List Tok), TokList (cur ++ ts) → w fp + tokWidth w (cur ++ ts) ≤ lw → fillFirst w fp p lw cur ts = [cur ++ ts]
  | [], cur, _, _ => by simp [fillFirst]
  | t :: ts, cur, h, hl => by
    have e : cur ++ t :: ts = (cur ++ [t]) ++ ts := by simp
    have hc := width_tokText hw cur h.left
    rw [fillFirst, if_pos, fillFirst_keepAt hw hp p ts (cur ++ [t]) (e ▸ h) (e ▸ hl), e]
    right
    rw [hw.append hp, hc]
    simp only [tokWidth, List.map_append, List.map_cons, List.sum_append, List.sum_cons] at hl ⊢
    omega

theorem wrapSingle_keepAt {w : List Char → Nat} (hw : WidthOk w) {fp : List Char} (hp : PfxOk fp) (p : List Char) {lw : Nat} {l : List Char}
    (h : CleanLine l) (h0 : l ≠ []) (hl : w fp + w l ≤ lw) : wrapSingle w l fp p lw = fp ++ l := by
  obtain ⟨hc, ht⟩ := clean_tokenize h
  have hwd := width_tokText hw _ hc.toTokList
  rw [ht] at hwd
  rw [wrapSingle_eq, groups_first, fillFirst_keepAt hw hp p _ [] (by simpa using hc.toTokList) (by simpa [← hwd] using hl)]
  simp only [rawLines, List.nil_append, List.map_cons, List.map_nil, joinWith, ht]
  have e : trimEnd l = l := by
    calc trimEnd l = trimEnd (trim l) := by rw [h.trim]
      _ = trim l := trimEnd_idem _
      _ = l := h.trim
  rw [trimEnd_append_right (by rw [e]; exact h0), e]

/-- Plain text in a block quote that fits is not wrapped. -/
theorem wrapSegment_keepAt {w : List Char → Nat} (hw : WidthOk w) {q : List Char} (hq : PfxOk q) {lw : Nat} {ls : List (List Char)} (h0 : ls ≠ [])
    (h : ∀ l ∈ ls, TextLine l) (hf : ParFits (Fits w lw) (w q) (w q) ls) :
    wrapSegment w (joinWith ['\x00'] ls) q q lw = joinWith ['\n'] (ls.map (q ++ ·)) := by
  have hz : ∀ l ∈ ls, '\x00' ∉ l := fun l hl => textLine_not_mem (h l hl) _ (by decide) (by decide)
  have hsp : splitOn nul (joinWith ['\x00'] ls) = ls := splitOn_join h0 hz
  have ht : ∀ l ∈ ls, trim l = l := fun l hl => (textLine_clean (h l hl)).trim
  have hn : ∀ l ∈ ls, trim l ≠ [] := fun l hl => by rw [ht l hl]; exact textLine_ne_nil (h l hl)
  have hfit : ∀ l ∈ ls, w q + w l ≤ lw := by
    cases ls with
    | nil => simp
    | cons l r =>
      intro x hx
      rcases List.mem_cons.1 hx with rfl | hx
      · exact hf.1
      · exact hf.2 x hx
  rw [wrapSegment, hsp]
  by_cases hr : ls.length = 1
  · obtain ⟨l, rfl⟩ : ∃ l, ls = [l] := List.length_eq_one_iff.1 hr
    rw [if_pos (by rfl), joinWith, wrapSingle_keepAt hw hq _ (textLine_clean (h l (by simp))) (textLine_ne_nil (h l (by simp))) (hfit l (by simp))]
    rfl
  · rw [if_neg hr, wrapLines_body w _ lw _ hn h0]
    simp only [if_true, List.nil_append]
    have key : ∀ r : List (List Char), (∀ l ∈ r, trim l = l) → (∀ l ∈ r, w q + w l ≤ lw) →
        bodyLines w q lw q r = r.map (q ++ ·) := by
      intro r
      induction r with
      | nil => intro _ _; rfl
      | cons x r ih =>
        intro h1 h2
        rw [bodyLines, h1 x (by simp), if_pos (h2 x (by simp)), ih (fun y hy => h1 y (by simp [hy])) (fun y hy => h2 y (by simp [hy]))]
        rfl
    rw [key ls ht hfit]

/-- The lines of plain text that is wrapped in a block quote fit. -/
theorem parFits_at {w : List Char → Nat} (hw : WidthOk w) {q : List Char} (hq : PfxOk q) (hnq : '\n' ∉ q) (lw : Nat) {ls ms : List (List Char)} (h0 : ls ≠ [])
    (h : ∀ l ∈ ls, TextLine l) (mt : ∀ m ∈ ms, TextLine m)
    (e : wrapSegment w (joinWith ['\x00'] ls) q q lw = joinWith ['\n'] (ms.map (q ++ ·))) :
    ParFits (FitsOrWord w lw) (w q) (w q) ms := by
  have hnl : '\n' ∉ joinWith ['\x00'] ls := by
    intro hm
    rcases mem_joinWith hm with hm | ⟨l, hl, hm⟩
    · exact absurd hm (by decide)
    · exact textLine_not_mem (h l hl) _ (by decide) (by decide) hm
  have key : ∀ m ∈ ms, FitsOrWord w lw (w q) m := by
    intro m hm
    have hsp : splitOn '\n' (wrapSegment w (joinWith ['\x00'] ls) q q lw) = ms.map (q ++ ·) := by
      rw [e]
      refine splitOn_join (by cases ms <;> simp at hm ⊢) ?_
      intro l hl
      obtain ⟨x, hx, rfl⟩ := List.mem_map.1 hl
      intro hc
      rcases List.mem_append.1 hc with hc | hc
      · exact hnq hc
      · exact textLine_not_mem (mt x hx) '\n' (by decide) (by decide) hc
    rcases wrapSegment_width hw lw hq hq hnq hnq hnl (softOk_plain h0 h) (l := q ++ m) (by rw [hsp]; exact List.mem_map.2 ⟨m, hm, rfl⟩) with
      h1 | ⟨q', u, hq', hu, he⟩
    · left; rw [hw.append hq] at h1; exact h1
    · right
      obtain ⟨t, _, ht⟩ := trimEnd_append (q' ++ u)
      have : q' = q := by rcases hq' with h | h <;> exact h
      rw [← he, this, List.append_assoc] at ht
      rw [List.append_cancel_left ht] at hu
      exact unbreakable_prefix hu
  cases ms with
  | nil => trivial
  | cons m r => exact ⟨key m (by simp), fun x hx => key x (by simp [hx])⟩

/-- Plain text that fits is not wrapped. -/
theorem wrapSegment_keep {w : List Char → Nat} (hw : WidthOk w) (n : Nat) {lw : Nat} {ls : List (List Char)} (h0 : ls ≠ []) (h : ∀ l ∈ ls, TextLine l)
    (hf : ParFits (Fits w lw) 0 n ls) :
    wrapSegment w (joinWith ['\x00'] ls) [] (spaces n) lw = joinWith ['\n'] (layout [] (spaces n) ls) := by
  have hz : ∀ l ∈ ls, '\x00' ∉ l := fun l hl => textLine_not_mem (h l hl) _ (by decide) (by decide)
  have hsp : splitOn nul (joinWith ['\x00'] ls) = ls := splitOn_join h0 hz
  have ht : ∀ l ∈ ls, trim l = l := fun l hl => (textLine_clean (h l hl)).trim
  have hn : ∀ l ∈ ls, trim l ≠ [] := fun l hl => by rw [ht l hl]; exact textLine_ne_nil (h l hl)
  obtain ⟨l, r, rfl⟩ := List.exists_cons_of_ne_nil h0
  have hwl : w l ≤ lw := by
    have := hf.1
    unfold Fits at this
    omega
  rw [wrapSegment, hsp]
  by_cases hr : r = []
  · subst hr
    rw [if_pos (by rfl), joinWith, wrapSingle_keep hw _ (textLine_clean (h l (by simp))) hwl]
    simp [layout, joinWith]
  · have hlen : (l :: r).length ≠ 1 := by
      have := List.length_pos_iff.2 hr
      simp; omega
    rw [if_neg hlen, wrapLines_body w _ lw _ hn h0]
    simp only [if_true, List.nil_append]
    have hsw : w (spaces n) = n := width_spaces hw n
    have key : ∀ r : List (List Char), (∀ l ∈ r, trim l = l) → (∀ l ∈ r, Fits w lw n l) →
        bodyLines w (spaces n) lw (spaces n) r = r.map (spaces n ++ ·) := by
      intro r
      induction r with
      | nil => intro _ _; rfl
      | cons x r ih =>
        intro h1 h2
        have := h2 x (by simp)
        unfold Fits at this
        rw [bodyLines, h1 x (by simp), hsw, if_pos this, ih (fun y hy => h1 y (by simp [hy])) (fun y hy => h2 y (by simp [hy]))]
        rfl
    rw [bodyLines, ht l (by simp), hw.nil, if_pos (by omega), key r (fun x hx => ht x (by simp [hx])) hf.2, layout]

theorem layout_lines {p : List Char} (hp : '\n' ∉ p) {ms : List (List Char)} (mt : ∀ m ∈ ms, TextLine m) :
    ∀ l ∈ layout [] p ms, '\n' ∉ l := by
  cases ms with
  | nil => simp [layout]
  | cons m r =>
    intro l hl
    rw [layout, List.mem_cons, List.mem_map] at hl
    rcases hl with rfl | ⟨x, hx, rfl⟩
    · simpa using textLine_not_mem (mt l (by simp)) '\n' (by decide) (by decide)
    · intro hc
      rcases List.mem_append.1 hc with hc | hc
      · exact hp hc
      · exact textLine_not_mem (mt x (by simp [hx])) '\n' (by decide) (by decide) hc

/-- The lines of a text are its own. -/
theorem layout_inj {p : List Char} (hp : '\n' ∉ p) {ms ls : List (List Char)} (m0 : ms ≠ []) (l0 : ls ≠ []) (mt : ∀ m ∈ ms, TextLine m)
    (lt : ∀ l ∈ ls, TextLine l) (e : joinWith ['\n'] (layout [] p ms) = joinWith ['\n'] (layout [] p ls)) : ms = ls := by
  have h1 : ∀ {xs : List (List Char)}, xs ≠ [] → layout [] p xs ≠ [] := by
    intro xs h; cases xs with
    | nil => exact absurd rfl h
    | cons _ _ => simp [layout]
  have h2 := splitOn_join (h1 m0) (layout_lines hp mt)
  rw [e, splitOn_join (h1 l0) (layout_lines hp lt)] at h2
  obtain ⟨m, r, rfl⟩ := List.exists_cons_of_ne_nil m0
  obtain ⟨l, s, rfl⟩ := List.exists_cons_of_ne_nil l0
  simp only [layout, List.nil_append, List.cons.injEq] at h2
  rw [h2.1]
  congr 1
  exact (List.map_inj_right (fun a b h => List.append_cancel_left h)).1 h2.2.symm

theorem paragraphLines_append : ∀ a b : List CoreBlock, paragraphLines (a ++ b) = paragraphLines a ++ paragraphLines b
  | [], b => rfl
  | .paragraph ls :: a, b => by rw [List.cons_append, paragraphLines, paragraphLines, paragraphLines_append a b]; rfl
  | .heading _ _ :: a, b => paragraphLines_append a b
  | .code _ _ :: a, b => paragraphLines_append a b
  | .rule :: a, b => paragraphLines_append a b
  | .definition _ _ :: a, b => paragraphLines_append a b

end Hongdown
