import Verif.Lemmas.WrapKeep

/-!
# Lines of text and what they are wrapped to
-/

namespace Hongdown
open Model Spec

theorem fillFirst_ne {w : List Char → Nat} {fp p lw} (ts : List Tok) : ∀ cur, cur ≠ [] →
    ∀ g ∈ fillFirst w fp p lw cur ts, g ≠ [] := by
  induction ts with
  | nil => intro cur h g hg; simp [fillFirst] at hg; rw [hg]; exact h
  | cons t ts ih =>
    intro cur h g hg
    rw [fillFirst] at hg
    split at hg
    · exact ih _ (by simp) g hg
    · rcases List.mem_cons.mp hg with hg | hg
      · rw [hg]; exact h
      · exact fill_ne _ _ (by simp) g hg

theorem fillFirst_nil_cons {w : List Char → Nat} (fp p lw) (t : Tok) (ts : List Tok) :
    fillFirst w fp p lw [] (t :: ts) = fillFirst w fp p lw [t] ts := by
  rw [fillFirst, if_pos (by simp)]; rfl

theorem fillFirst_restart {w : List Char → Nat} {fp p lw} (ts : List Tok) : ∀ cur g gs,
    fillFirst w fp p lw cur ts = g :: gs → gs ≠ [] → groups w p p lw gs.flatten = gs := by
  induction ts with
  | nil =>
    intro cur g gs h hne
    simp [fillFirst] at h; exact absurd h.2 hne
  | cons t ts ih =>
    intro cur g gs h hne
    rw [fillFirst] at h
    split at h
    · exact ih _ g gs h hne
    · rw [List.cons.injEq] at h
      rw [← h.2, fill_flatten, List.singleton_append, groups_fill, fill_nil_cons]

theorem ends_space : EndsOutside [' '] := by decide

theorem ends_join_last : ∀ (a : List (List Char)) (z : List Char), (∀ l ∈ a, EndsOutside l) →
    (EndsOutside (joinWith [' '] (a ++ [z])) ↔ EndsOutside z)
  | [], z, _ => Iff.rfl
  | x :: a, z, h => by
    rw [List.cons_append, joinWith_cons _ _ (by simp), List.append_assoc, ends_append (h x (by simp)), ends_append ends_space]
    exact ends_join_last a z fun l hl => h l (by simp [hl])

theorem ends_join {ls : List (List Char)} (h : ∀ l ∈ ls, EndsOutside l) : EndsOutside (joinWith [' '] ls) := by
  rcases List.eq_nil_or_concat ls with rfl | ⟨a, z, rfl⟩
  · rfl
  · rw [List.concat_eq_append] at h ⊢
    exact (ends_join_last a z fun l hl => h l (by simp [hl])).2 (h z (by simp))

/-- Lines end outside of code spans if all of the text does. -/
theorem groups_ends {gs : List (List Tok)} (h0 : gs ≠ []) (hcl : Clean gs.flatten) (hgne : ∀ g ∈ gs, g ≠ []) {l : List Char}
    (hj : joinWith [' '] (gs.map lineText) = l) (he : EndsOutside l) : ∀ g ∈ gs, EndsOutside (lineText g) := by
  obtain ⟨a, z, rfl⟩ := (List.eq_nil_or_concat gs).resolve_left h0
  rw [List.concat_eq_append] at *
  have ha : ∀ g ∈ a, EndsOutside (lineText g) := by
    intro g hg
    obtain ⟨x, y, rfl⟩ := List.append_of_mem hg
    have hcl := hcl
    rw [List.append_assoc, List.cons_append, List.flatten_append, List.flatten_cons] at hcl
    have hc1 := hcl.right
    have k1 := lineText_group hc1 (hgne g (by simp))
    have hfl : ¬ (y ++ [z]).flatten = [] := by
      have := hgne z (by simp)
      simp [this]
    rw [if_neg hfl] at k1
    have k2 : endSt false 0 (tokText g) = (false, 0) := by
      apply endsOutside_tokText
      · intro q hq
        apply hc1.fin
        rw [List.dropLast_append_of_ne_nil hfl]; simp [hq]
      · intro q hq; exact hc1.spaces q (by simp [hq])
    rw [k1.1, endSt_append] at k2
    unfold EndsOutside
    generalize endSt false 0 (lineText g) = q at k2 ⊢
    obtain ⟨b, d⟩ := q
    cases b
    · simpa [endSt] using k2
    · simp [endSt] at k2
  intro g hg
  rcases List.mem_append.1 hg with hg | hg
  · exact ha g hg
  · rw [List.mem_singleton] at hg
    subst hg
    rw [← hj, List.map_append, List.map_cons, List.map_nil, ends_join_last _ _ (by simpa using ha)] at he
    exact he

/-- The groups of a clean text. -/
structure FirstLines (w : List Char → Nat) (fp p : List Char) (lw : Nat) (l : List Char) (gs : List (List Tok)) : Prop where
  ne : gs ≠ []
  clean : Clean gs.flatten
  gne : ∀ g ∈ gs, g ≠ []
  fix : groups w fp p lw gs.flatten = gs
  rest : ∀ g r, gs = g :: r → r ≠ [] → groups w p p lw r.flatten = r
  join : joinWith [' '] (gs.map lineText) = l
  line : ∀ g ∈ gs, CleanLine (lineText g)
  ends : EndsOutside l → ∀ g ∈ gs, EndsOutside (lineText g)

theorem firstLines_of_clean (w : List Char → Nat) (fp p : List Char) (lw : Nat) {l : List Char} (h : CleanLine l) :
    ∃ gs, FirstLines w fp p lw l gs := by
  obtain ⟨hc, ht⟩ := clean_tokenize h
  have hfl := groups_flatten w fp p lw (tokenize l)
  have hne : tokenize l ≠ [] := by
    intro hh; rw [hh] at ht; exact h.ne ht.symm
  have hgne : ∀ g ∈ groups w fp p lw (tokenize l), g ≠ [] := by
    rw [groups_first]
    cases htl : tokenize l with
    | nil => exact absurd htl hne
    | cons t ts => rw [fillFirst_nil_cons]; exact fillFirst_ne ts _ (by simp)
  have hcl : Clean (groups w fp p lw (tokenize l)).flatten := by rw [hfl]; exact hc
  have hjoin : joinWith [' '] ((groups w fp p lw (tokenize l)).map lineText) = l := by rw [join_lineText _ hcl hgne, hfl, ht]
  refine ⟨groups w fp p lw (tokenize l), groups_ne_nil _ _ _ _ _, hcl, hgne, by rw [hfl], ?_, hjoin, ?_,
    fun he => groups_ends (groups_ne_nil _ _ _ _ _) hcl hgne hjoin he⟩
  · intro g r hgr hr
    rw [groups_first] at hgr
    exact fillFirst_restart _ _ _ _ hgr hr
  · intro g hg
    obtain ⟨a, b, hab⟩ := List.append_of_mem hg
    have hinf : lineText g <:+: l := by
      have : tokText g <:+: l := by
        rw [← ht, ← hfl, hab, List.flatten_append, List.flatten_cons, tokText_append, tokText_append]
        exact ⟨tokText a.flatten, tokText b.flatten, by simp⟩
      exact (trimEnd_prefix (tokText g)).isInfix.trans this
    have hcl' := hcl
    rw [hab, List.flatten_append, List.flatten_cons] at hcl'
    have h1 := lineText_group hcl'.right (hgne g hg)
    exact h.of_infix hinf h1.2.1 h1.2.2

theorem wrapSingle_first {w : List Char → Nat} {fp p : List Char} {lw : Nat} {l : List Char} {gs : List (List Tok)}
    (h : FirstLines w fp p lw l gs) :
    wrapSingle w l fp p lw = joinWith ['\n'] (layout fp p (gs.map lineText)) := by
  rw [← h.join, join_lineText gs h.clean h.gne, wrapSingle_eq, tokenize_tokText h.clean.toTokList h.clean.last, h.fix]
  congr 1
  have key : ∀ q : List Char, ∀ g ∈ gs, trimEnd (q ++ tokText g) = q ++ lineText g := by
    intro q g hgm
    obtain ⟨a, b, hab⟩ := List.append_of_mem hgm
    have hc := h.clean
    rw [hab, List.flatten_append, List.flatten_cons] at hc
    have h1 := lineText_group hc.right (h.gne g hgm)
    have h2 : trimEnd (tokText g) ≠ [] := h1.2.1
    rw [trimEnd_append_right h2]; rfl
  clear h
  cases gs with
  | nil => rfl
  | cons g r =>
    simp only [rawLines, List.map_cons, layout, List.map_map]
    rw [key fp g (by simp)]
    congr 1
    apply List.map_congr_left
    intro x hx
    exact key p x (by simp [hx])

theorem layout_cons (fp p : List Char) (m : List Char) (ms : List (List Char)) : layout fp p (m :: ms) = (fp ++ m) :: layout p p ms := by
  rw [layout, layout_same]

/-- Lines that were produced by the layout stay. -/
theorem bodyLines_first {w : List Char → Nat} {fp p : List Char} {lw : Nat} {l : List Char} {gs : List (List Tok)}
    (hL : FirstLines w fp p lw l gs) :
    joinWith ['\n'] (bodyLines w p lw fp (gs.map lineText)) = joinWith ['\n'] (layout fp p (gs.map lineText)) := by
  have hsing := wrapSingle_first hL
  obtain ⟨g, r, hgr⟩ := List.exists_cons_of_ne_nil hL.ne
  have hcg := hL.line g (by rw [hgr]; simp)
  rw [hgr, List.map_cons, bodyLines, hcg.trim]
  split
  · cases r with
    | nil => rfl
    | cons a r =>
      have hcr : Clean (a :: r).flatten := by
        have := hL.clean
        rw [hgr, List.flatten_cons] at this
        exact this.right
      rw [joinWith_cons _ _ (bodyLines_ne_nil _ _ _ _ (by simp)),
        bodyLines_stable (a :: r) (by simp) hcr (fun x hx => hL.gne x (by rw [hgr]; simp only [List.mem_cons] at hx ⊢; exact .inr hx))
          (hL.rest g (a :: r) hgr (by simp)), layout_cons, layout_same, joinWith_cons _ _ (by simp), List.map_map]
      rfl
  · have ht : ∀ m ∈ r.map lineText, trim m = m := by
      intro m hm
      obtain ⟨x, hx, rfl⟩ := List.mem_map.mp hm
      exact (hL.line x (by rw [hgr]; simp [hx])).trim
    rw [mergeLines_clean ht, joinWith, ← List.map_cons, ← hgr, hL.join, hsing]

/-- The lines that clean soft lines become, and that they stay. -/
theorem bodyFirst_clean {w : List Char → Nat} {p : List Char} {lw : Nat} : ∀ (ls : List (List Char)) (fp : List Char),
    ls ≠ [] → (∀ l ∈ ls, CleanLine l) →
    ∃ ms : List (List Char), ms ≠ [] ∧ (∀ m ∈ ms, CleanLine m) ∧ joinWith [' '] ms = joinWith [' '] ls ∧
      joinWith ['\n'] (bodyLines w p lw fp ls) = joinWith ['\n'] (layout fp p ms) ∧
      joinWith ['\n'] (bodyLines w p lw fp ms) = joinWith ['\n'] (layout fp p ms) ∧
      (ls.length ≠ 1 → ∀ m, ms = [m] → wrapSingle w m fp p lw = fp ++ m) ∧
      ((∀ l ∈ ls, EndsOutside l) → ∀ m ∈ ms, EndsOutside m) := by
  intro ls
  induction ls with
  | nil => intro _ h; exact absurd rfl h
  | cons l rest ih =>
    intro fp _ hcl
    have hl := hcl l (by simp)
    by_cases hfit : w fp + w (trim l) ≤ lw
    · cases rest with
      | nil =>
        refine ⟨[l], by simp, by simpa using hl, rfl, ?_, ?_, by simp, fun h => h⟩
        · rw [bodyLines, if_pos hfit, hl.trim]; rfl
        · rw [bodyLines, if_pos hfit, hl.trim]; rfl
      | cons m rest =>
        obtain ⟨ms, h1, h2, h3, h4, h5, _, h7⟩ := ih p (by simp) (fun x hx => hcl x (by simp [hx]))
        have hlay : layout p p ms ≠ [] := by
          cases ms with
          | nil => exact absurd rfl h1
          | cons _ _ => simp [layout]
        refine ⟨l :: ms, by simp, ?_, ?_, ?_, ?_, ?_, ?_⟩
        · intro x hx
          rcases List.mem_cons.mp hx with rfl | hx
          · exact hl
          · exact h2 x hx
        · rw [joinWith_cons (sep := [' ']) l h1, joinWith_cons (sep := [' ']) l (by simp), h3]
        · rw [bodyLines, if_pos hfit, hl.trim, joinWith_cons _ _ (bodyLines_ne_nil _ _ _ _ (by simp)), h4,
            layout_cons, joinWith_cons _ _ hlay]
        · rw [bodyLines, if_pos hfit, hl.trim, joinWith_cons _ _ (bodyLines_ne_nil _ _ _ _ h1), h5,
            layout_cons, joinWith_cons _ _ hlay]
        · intro _ x hx
          simp at hx; exact absurd hx.2 h1
        · intro he x hx
          rcases List.mem_cons.mp hx with rfl | hx
          · exact he x (by simp)
          · exact h7 (fun y hy => he y (by simp only [List.mem_cons] at hy ⊢; exact .inr hy)) x hx
    · have htr : ∀ m ∈ rest, trim m = m := fun m hm => (hcl m (by simp [hm])).trim
      have hcj : CleanLine (joinWith [' '] (l :: rest)) := cleanLine_join hcl (by simp)
      obtain ⟨gs, hL⟩ := firstLines_of_clean w fp p lw hcj
      have hsing := wrapSingle_first hL
      refine ⟨gs.map lineText, by simp [hL.ne], ?_, hL.join, ?_, ?_, ?_, ?_⟩
      · intro m hm
        obtain ⟨g, hg, rfl⟩ := List.mem_map.mp hm
        exact hL.line g hg
      · rw [bodyLines, if_neg hfit, hl.trim, mergeLines_clean htr, joinWith, hsing]
      · exact bodyLines_first hL
      · intro _ m hm
        have hj := hL.join
        rw [hm, joinWith] at hj
        rw [hm, ← hj] at hsing
        rw [hsing]; rfl
      · intro he m hm
        obtain ⟨g, hg, rfl⟩ := List.mem_map.mp hm
        exact hL.ends (ends_join he) g hg

/-- One segment of clean soft lines. -/
theorem wrapSegment_first (w : List Char → Nat) (fp p : List Char) (lw : Nat) {ls : List (List Char)} (h0 : ls ≠ [])
    (hcl : ∀ l ∈ ls, CleanLine l) (hz : ∀ l ∈ ls, '\x00' ∉ l) :
    ∃ ms : List (List Char), ms ≠ [] ∧ (∀ m ∈ ms, CleanLine m) ∧ joinWith [' '] ms = joinWith [' '] ls ∧
      wrapSegment w (joinWith ['\x00'] ls) fp p lw = joinWith ['\n'] (layout fp p ms) ∧
      wrapSegment w (joinWith ['\x00'] ms) fp p lw = joinWith ['\n'] (layout fp p ms) ∧
      ((∀ l ∈ ls, EndsOutside l) → ∀ m ∈ ms, EndsOutside m) := by
  have hnn : ∀ {ls : List (List Char)}, (∀ l ∈ ls, CleanLine l) → ∀ l ∈ ls, trim l ≠ [] := by
    intro ls h l hl; rw [(h l hl).trim]; exact (h l hl).ne
  have second : ∀ ms : List (List Char), ms ≠ [] → (∀ m ∈ ms, CleanLine m) → (∀ m ∈ ms, '\x00' ∉ m) →
      wrapSegment w (joinWith ['\x00'] ms) fp p lw =
        if ms.length = 1 then wrapSingle w (joinWith ['\x00'] ms) fp p lw
        else joinWith ['\n'] (bodyLines w p lw fp ms) := by
    intro ms h1 h2 h3
    have hsp : splitOn nul (joinWith ['\x00'] ms) = ms := splitOn_join h1 h3
    rw [wrapSegment, hsp]
    by_cases hlen : ms.length = 1
    · simp [hlen]
    · simp only [hlen, if_false]
      rw [wrapLines_body w p lw ms (hnn h2) h1]; simp
  have noz : ∀ ms : List (List Char), joinWith [' '] ms = joinWith [' '] ls → ∀ m ∈ ms, '\x00' ∉ m := by
    intro ms hj m hm hc
    have : '\x00' ∈ joinWith [' '] ms := by
      obtain ⟨a, b, rfl⟩ := List.append_of_mem hm
      have hi := joinWith_infix [' '] [m] a b
      rw [joinWith] at hi
      simpa using hi.subset hc
    rw [hj] at this
    rcases mem_joinWith this with e | ⟨l, hl, e⟩
    · exact absurd e (by decide)
    · exact hz l hl e
  have first := second ls h0 hcl hz
  by_cases hlen : ls.length = 1
  · obtain ⟨l, rfl⟩ : ∃ l, ls = [l] := by
      match ls, hlen with
      | [l], _ => exact ⟨l, rfl⟩
    obtain ⟨gs, hL⟩ := firstLines_of_clean w fp p lw (hcl l (by simp))
    have hsing := wrapSingle_first hL
    have hcm : ∀ m ∈ gs.map lineText, CleanLine m := by
      intro m hm
      obtain ⟨g, hg, rfl⟩ := List.mem_map.mp hm
      exact hL.line g hg
    refine ⟨gs.map lineText, by simp [hL.ne], hcm, hL.join, ?_, ?_, ?_⟩
    · rw [first, if_pos hlen, joinWith, hsing]
    · rw [second _ (by simp [hL.ne]) hcm (noz _ hL.join)]
      split
      · next h1 =>
        obtain ⟨m, hm⟩ : ∃ m, gs.map lineText = [m] := by
          match hgm : gs.map lineText, h1 with
          | [m], _ => exact ⟨m, rfl⟩
        have hj := hL.join
        rw [hm, joinWith] at hj
        rw [hm, joinWith, hj, hsing, hm, hj]
      · exact bodyLines_first hL
    · intro he m hm
      obtain ⟨g, hg, rfl⟩ := List.mem_map.mp hm
      exact hL.ends (he l (by simp)) g hg
  · rw [if_neg hlen] at first
    obtain ⟨ms, h1, h2, h3, h4, h5, h6, h7⟩ := bodyFirst_clean (w := w) (p := p) (lw := lw) ls fp h0 hcl
    refine ⟨ms, h1, h2, h3, by rw [first, h4], ?_, h7⟩
    rw [second ms h1 h2 (noz ms h3)]
    split
    · next hl1 =>
      obtain ⟨m, hm⟩ : ∃ m, ms = [m] := by
        match ms, hl1 with
        | [m], _ => exact ⟨m, rfl⟩
      rw [hm, joinWith, h6 hlen m hm]; rfl
    · exact h5

end Hongdown
