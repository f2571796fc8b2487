import Verif.Lemmas.WrapStable

namespace Hongdown
open Model Spec

theorem wrapText_eq (w : List Char → Nat) (text pfx : List Char) (lw : Nat) :
    wrapText w text pfx lw =
      joinWith [' ', ' ', '\n'] ((splitOn '\n' text).map fun s => wrapSegment w s pfx pfx lw) := by
  rw [wrapText]
  split
  · next h =>
    have : splitOn '\n' text = [text] := by
      have hj := join_splitOn '\n' text
      cases hs : splitOn '\n' text with
      | nil => exact absurd hs (splitOn_ne_nil _ _)
      | cons a r =>
        rw [hs] at h hj
        cases r with
        | nil => rw [joinWith] at hj; rw [hj]
        | cons _ _ => simp at h
    rw [this]; rfl
  · rfl

/-- The lines of texts joined by hard breaks, up to trailing whitespace. -/
theorem splitOn_hard {outs : List (List Char)} (h : outs ≠ []) :
    (splitOn '\n' (joinWith [' ', ' ', '\n'] outs)).map trimEnd =
      outs.flatMap fun o => (splitOn '\n' o).map trimEnd := by
  induction outs with
  | nil => exact absurd rfl h
  | cons a r ih =>
    cases r with
    | nil => simp [joinWith]
    | cons b r =>
      rw [joinWith_cons _ _ (by simp)]
      have : a ++ [' ', ' ', '\n'] ++ joinWith [' ', ' ', '\n'] (b :: r) =
          (a ++ [' ', ' ']) ++ '\n' :: joinWith [' ', ' ', '\n'] (b :: r) := by simp
      rw [this, splitOn_append_cons, List.map_append, splitOn_trailing (by decide) (by decide), ih (by simp),
        List.flatMap_cons (x := a)]

theorem layout_same (p : List Char) (cs : List (List Char)) : layout p p cs = cs.map (p ++ ·) := by
  cases cs <;> simp [layout]

theorem words_texts {segs : List (List Char)} {css : List (List (List Char))}
    (h : css.map (·.flatMap words) = segs.map words) : css.flatten.flatMap words = segs.flatMap words := by
  induction css generalizing segs with
  | nil => cases segs with
    | nil => rfl
    | cons _ _ => simp at h
  | cons c css ih =>
    cases segs with
    | nil => simp at h
    | cons s segs =>
      simp only [List.map_cons, List.cons.injEq] at h
      rw [List.flatten_cons, List.flatMap_append, h.1, ih h.2, List.flatMap_cons]

/-- A property of segments gives one of lists of segments. -/
theorem exists_lists {α β} {P : α → β → Prop} {l : List α} (h : ∀ a ∈ l, ∃ b, P a b) :
    ∃ m : List β, m.length = l.length ∧ ∀ q ∈ l.zip m, P q.1 q.2 := by
  induction l with
  | nil => exact ⟨[], rfl, by simp⟩
  | cons a r ih =>
    obtain ⟨b, hb⟩ := h a (by simp)
    obtain ⟨m, hm, hz⟩ := ih (fun x hx => h x (by simp [hx]))
    refine ⟨b :: m, by simp [hm], ?_⟩
    intro q hq
    rw [List.zip_cons_cons] at hq
    rcases List.mem_cons.mp hq with rfl | hq
    · exact hb
    · exact hz q hq

theorem map_of_zip {α β γ} {f : α → γ} {g : β → γ} {l : List α} {m : List β} (hl : m.length = l.length)
    (h : ∀ q ∈ l.zip m, f q.1 = g q.2) : l.map f = m.map g := by
  induction l generalizing m with
  | nil => cases m with
    | nil => rfl
    | cons _ _ => simp at hl
  | cons a r ih =>
    cases m with
    | nil => simp at hl
    | cons b m =>
      rw [List.zip_cons_cons] at h
      rw [List.map_cons, List.map_cons, h (a, b) (by simp), ih (by simpa using hl) (fun q hq => h q (by simp [hq]))]

theorem flatMap_flatten_map {α β} (f : List α → List β) (ls : List (List α)) :
    ls.flatMap f = (ls.map f).flatten := rfl

theorem wrapText_layout (w : List Char → Nat) {text pfx : List Char} (lw : Nat) (hp : '\n' ∉ pfx)
    (hs : ∀ s ∈ splitOn '\n' text, SoftOk s) :
    ∃ cs : List (List Char), (splitOn '\n' (wrapText w text pfx lw)).map trimEnd = cs.map (fun c => trimEnd (pfx ++ c)) ∧
      cs.flatMap words = words text ∧ cs.flatMap visible = visible text := by
  obtain ⟨css, hlen, hz⟩ := exists_lists (l := splitOn '\n' text)
    (P := fun s cs => (splitOn '\n' (wrapSegment w s pfx pfx lw)).map trimEnd =
        (layout pfx pfx cs).map trimEnd ∧ cs.flatMap words = words s ∧ cs.flatMap visible = visible s)
    (fun s hsm => wrapSegment_layout w lw hp hp (splitOn_not_mem _ _ s hsm) (hs s hsm))
  refine ⟨css.flatten, ?_, ?_, ?_⟩
  · rw [wrapText_eq, splitOn_hard (by simp [splitOn_ne_nil]), List.flatMap_map]
    have h1 : (splitOn '\n' text).map (fun s => (splitOn '\n' (wrapSegment w s pfx pfx lw)).map trimEnd) =
        css.map fun cs => cs.map (fun c => trimEnd (pfx ++ c)) := by
      apply map_of_zip hlen
      intro q hq
      rw [(hz q hq).1, layout_same, List.map_map]; rfl
    rw [flatMap_flatten_map, h1, List.map_flatten]
  · rw [← words_splitOn isSep_nl text]
    have h1 : (splitOn '\n' text).map words = css.map (fun cs => cs.flatMap words) :=
      map_of_zip hlen (fun q hq => ((hz q hq).2.1).symm)
    rw [flatMap_flatten_map words (splitOn _ _), h1, flatMap_flatten_map words, List.map_flatten, List.flatten_flatten,
      List.map_map]
    rfl
  · rw [← visible_splitOn isSep_nl text]
    have h1 : (splitOn '\n' text).map visible = css.map (fun cs => cs.flatMap visible) :=
      map_of_zip hlen (fun q hq => ((hz q hq).2.2).symm)
    rw [flatMap_flatten_map visible (splitOn _ _), h1, flatMap_flatten_map visible, List.map_flatten, List.flatten_flatten,
      List.map_map]
    rfl

/-! ## Visible characters without conditions -/

theorem visible_rawLines {fp pfx : List Char} (hf : visible fp = []) (hp : visible pfx = []) (gs : List (List Tok)) :
    visible (joinWith ['\n'] ((rawLines fp pfx gs).map trimEnd)) = visible (tokText gs.flatten) := by
  have key : ∀ ls : List (List Char), visible (joinWith ['\n'] (ls.map trimEnd)) = ls.flatMap visible := by
    intro ls
    induction ls with
    | nil => rfl
    | cons a r ih =>
      cases r with
      | nil => simp [joinWith, visible_trimEnd]
      | cons b r =>
        rw [List.map_cons, joinWith_cons _ _ (by simp), visible_append, visible_append, ih, visible_trimEnd,
          visible_ws (t := ['\n']) (by decide), List.append_nil, List.flatMap_cons (x := a)]
  rw [key, rawLines_eq_layout, tokText_flatten, visible_flatten]
  cases gs with
  | nil => rfl
  | cons g gs =>
    simp only [List.map_cons, layout, List.flatMap_cons, visible_append, hf, List.nil_append, List.flatMap_map, hp]

theorem visible_wrapSingle (w : List Char → Nat) {text fp pfx : List Char} (lw : Nat) (hf : visible fp = [])
    (hp : visible pfx = []) : visible (wrapSingle w text fp pfx lw) = visible text := by
  rw [wrapSingle_eq, visible_rawLines hf hp, groups_flatten, visible_tokenize]

theorem visible_wrapLines (w : List Char → Nat) {pfx : List Char} (lw : Nat) (hp : visible pfx = []) :
    ∀ (ls : List (List Char)) (result cur : List Char), visible cur = [] →
      visible (wrapLines w pfx lw result cur ls) = visible result ++ ls.flatMap visible := by
  intro ls
  induction ls with
  | nil => intro result cur _; simp [wrapLines]
  | cons l rest ih =>
    intro result cur hc
    have hsep : visible (if result = [] then [] else ['\n']) = [] := by split <;> decide
    rw [wrapLines]
    split
    · rw [ih _ _ hp]
      simp [visible_append, hsep, hc, visible_trim]
    · rw [visible_append, visible_append, hsep, visible_wrapSingle w lw hc hp, visible_merge, visible_trim]
      simp

theorem visible_wrapSegment (w : List Char → Nat) {text fp pfx : List Char} (lw : Nat) (hf : visible fp = [])
    (hp : visible pfx = []) : visible (wrapSegment w text fp pfx lw) = visible text := by
  rw [wrapSegment]
  split
  · exact visible_wrapSingle w lw hf hp
  · rw [visible_wrapLines w lw hp _ _ _ hf]
    exact visible_splitOn isSep_nul text

theorem visible_join_hard (outs : List (List Char)) :
    visible (joinWith [' ', ' ', '\n'] outs) = outs.flatMap visible := by
  induction outs with
  | nil => rfl
  | cons a r ih =>
    cases r with
    | nil => simp [joinWith]
    | cons b r =>
      rw [joinWith_cons _ _ (by simp), visible_append, visible_append, ih,
        visible_ws (t := [' ', ' ', '\n']) (by decide), List.append_nil, List.flatMap_cons (x := a)]

theorem visible_wrapText (w : List Char → Nat) {text pfx : List Char} (lw : Nat)
    (hp : visible pfx = []) : visible (wrapText w text pfx lw) = visible text := by
  rw [wrapText_eq, visible_join_hard, List.flatMap_map]
  simp only [visible_wrapSegment w lw hp hp]
  exact visible_splitOn isSep_nl text

theorem visible_wrapTextFirstLine (w : List Char → Nat) {text fp pfx : List Char} (lw : Nat)
    (hf : visible fp = []) (hp : visible pfx = []) :
    visible (wrapTextFirstLine w text fp pfx lw) = visible text := by
  rw [wrapTextFirstLine]
  split
  · next h => exact absurd h (splitOn_ne_nil _ _)
  · exact visible_wrapSegment w lw hf hp
  · next s rest _ h =>
    rw [visible_append, visible_wrapSegment w lw hf hp]
    rw [← visible_splitOn isSep_nl text, h, List.flatMap_cons]
    congr 1
    clear h
    induction rest with
    | nil => rfl
    | cons a r ih =>
      by_cases hr : r = []
      · subst hr
        simp only [List.flatMap_cons, List.flatMap_nil, List.append_nil]
        rw [visible_append, visible_append, hp, visible_wrapSegment w lw rfl hp]; rfl
      · rw [List.flatMap_cons, visible_append, ih hr, visible_append, visible_append, hp,
          visible_wrapSegment w lw rfl hp, List.flatMap_cons]; rfl

/-! ## No line of a segment ends in two spaces -/

theorem wrapSegment_last {w : List Char → Nat} {text fp pfx : List Char} {lw : Nat}
    (hf : '\n' ∉ fp) (hp : '\n' ∉ pfx) (ht : '\n' ∉ text)
    (hs : '\x00' ∈ text → ∀ l ∈ splitOn '\x00' text, trim l ≠ []) :
    ∀ l ∈ splitOn '\n' (wrapSegment w text fp pfx lw), ∀ c ∈ l.getLast?, isWs c = false := by
  have single : ∀ {t fp : List Char}, '\n' ∉ fp → '\n' ∉ t →
      ∀ l ∈ splitOn '\n' (wrapSingle w t fp pfx lw), ∀ c ∈ l.getLast?, isWs c = false := by
    intro t fp hf ht l hl
    rw [wrapSingle_lines w lw hf hp ht] at hl
    obtain ⟨r, _, rfl⟩ := List.mem_map.mp hl
    exact trimEnd_getLast r
  by_cases hmem : '\x00' ∈ text
  · have hb : ∀ l ∈ splitOn nul text, trim l ≠ [] := hs hmem
    have hlen : ¬ (splitOn nul text).length = 1 := splitOn_length_ne hmem
    rw [wrapSegment, if_neg hlen, wrapLines_body w pfx lw _ hb (splitOn_ne_nil _ _)]
    have key : ∀ (ls : List (List Char)), (∀ l ∈ ls, trim l ≠ []) → (∀ l ∈ ls, '\n' ∉ l) → ls ≠ [] →
        ∀ cur : List Char, '\n' ∉ cur →
        ∀ l ∈ splitOn '\n' (joinWith ['\n'] (bodyLines w pfx lw cur ls)), ∀ c ∈ l.getLast?, isWs c = false := by
      intro ls
      induction ls with
      | nil => intro _ _ h; exact absurd rfl h
      | cons l rest ih =>
        intro hb hn _ cur hc
        rw [bodyLines]
        split
        · have hl : '\n' ∉ cur ++ trim l := by
            rw [List.mem_append, not_or]
            exact ⟨hc, fun h => hn l (by simp) (trim_subset h)⟩
          have hlast : ∀ c ∈ (cur ++ trim l).getLast?, isWs c = false := by
            intro c hcl
            rw [List.getLast?_append] at hcl
            cases hg : (trim l).getLast? with
            | none => exact absurd (by simpa using hg) (hb l (by simp))
            | some d => rw [hg] at hcl; simp at hcl; subst hcl; exact trim_getLast l d hg
          cases rest with
          | nil =>
            intro x hx
            simp only [bodyLines, joinWith, splitOn_of_not_mem hl, List.mem_singleton] at hx
            rw [hx]; exact hlast
          | cons m rest =>
            intro x hx
            rw [joinWith_cons _ _ (bodyLines_ne_nil _ _ _ _ (by simp)), List.append_assoc,
              List.singleton_append, splitOn_append_sep hl] at hx
            rcases List.mem_cons.mp hx with hx | hx
            · rw [hx]; exact hlast
            · exact ih (fun l hl => hb l (by simp [hl])) (fun l hl => hn l (by simp [hl])) (by simp) pfx hp x hx
        · rw [joinWith]
          exact single hc (mergeLines_no_nl (fun h => hn l (by simp) (trim_subset h))
            (fun m hm => hn m (by simp [hm])))
    intro l hl
    exact key _ hb (fun l hl hn => ht (mem_splitOn_subset hl hn)) (splitOn_ne_nil _ _) fp hf l (by simpa using hl)
  · rw [wrapSegment, if_pos (by rw [show splitOn nul text = [text] from splitOn_of_not_mem hmem]; rfl)]
    exact single hf ht

end Hongdown
