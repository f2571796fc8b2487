import Verif.Lemmas.WrapLayout

namespace Hongdown
open Model Spec

/-! ## Greedy filling with one prefix -/

/-- The layout as a recursion over the tokens. -/
def fill (w : List Char → Nat) (p : List Char) (lw : Nat) : List Tok → List Tok → List (List Tok)
  | cur, [] => [cur]
  | cur, t :: ts =>
    if w (p ++ tokText cur) = w p ∨ w (p ++ tokText cur) + w t.1 + t.2.length ≤ lw then
      fill w p lw (cur ++ [t]) ts
    else cur :: fill w p lw [t] ts

theorem grpFold_fill (w p lw) (ts : List Tok) : ∀ g : Grp,
    (grpFold w p p lw g ts).1 ++ [(grpFold w p p lw g ts).2] = g.1 ++ fill w p lw g.2 ts := by
  induction ts with
  | nil => intro g; simp [grpFold, fill]
  | cons t ts ih =>
    intro g
    show (grpFold w p p lw (grpStep w p p lw g t) ts).1 ++
      [(grpFold w p p lw (grpStep w p p lw g t) ts).2] = _
    rw [ih, fill]
    have e : ∀ d, curPfx p p d = p := by intro d; simp [curPfx]
    unfold grpStep grpLine
    simp only [e]
    split <;> simp

theorem groups_fill (w p lw ts) : groups w p p lw ts = fill w p lw [] ts := by
  have := grpFold_fill w p lw ts ([], [])
  simpa [groups] using this

theorem fill_nil_cons {w : List Char → Nat} (p lw) (t : Tok) (ts : List Tok) :
    fill w p lw [] (t :: ts) = fill w p lw [t] ts := by
  rw [fill, if_pos (by simp)]; rfl

theorem fill_ne {w : List Char → Nat} {p lw} (ts : List Tok) : ∀ cur, cur ≠ [] →
    ∀ g ∈ fill w p lw cur ts, g ≠ [] := by
  induction ts with
  | nil => intro cur h g hg; simp [fill] at hg; rw [hg]; exact h
  | cons t ts ih =>
    intro cur h g hg
    rw [fill] at hg
    split at hg
    · exact ih _ (by simp) g hg
    · rcases List.mem_cons.mp hg with hg | hg
      · rw [hg]; exact h
      · exact ih _ (by simp) g hg

theorem groups_ne {w : List Char → Nat} {p lw} {ts : List Tok} (h : ts ≠ []) :
    ∀ g ∈ groups w p p lw ts, g ≠ [] := by
  rw [groups_fill]
  cases ts with
  | nil => exact absurd rfl h
  | cons t ts => rw [fill_nil_cons]; exact fill_ne ts _ (by simp)

theorem fill_flatten {w : List Char → Nat} {p lw} (ts : List Tok) : ∀ cur,
    (fill w p lw cur ts).flatten = cur ++ ts := by
  induction ts with
  | nil => intro cur; simp [fill]
  | cons t ts ih =>
    intro cur
    rw [fill]
    split
    · rw [ih]; simp
    · rw [List.flatten_cons, ih]; simp

/-- After a finished line the layout starts afresh. -/
theorem fill_restart {w : List Char → Nat} {p lw} (ts : List Tok) : ∀ cur g gs,
    fill w p lw cur ts = g :: gs → gs ≠ [] → groups w p p lw gs.flatten = gs := by
  induction ts with
  | nil =>
    intro cur g gs h hne
    simp [fill] at h; exact absurd h.2 hne
  | cons t ts ih =>
    intro cur g gs h hne
    rw [fill] at h
    split at h
    · exact ih _ g gs h hne
    · rw [List.cons.injEq] at h
      rw [← h.2, fill_flatten, List.singleton_append, groups_fill, fill_nil_cons]

theorem groups_restart {w : List Char → Nat} {p lw} {ts : List Tok} {a b : List (List Tok)}
    (h : groups w p p lw ts = a ++ b) (hb : b ≠ []) : groups w p p lw b.flatten = b := by
  induction a generalizing ts with
  | nil => rw [List.nil_append] at h; rw [← h, groups_flatten]
  | cons g a ih =>
    rw [List.cons_append, groups_fill] at h
    have h2 := fill_restart ts [] g (a ++ b) h (by simp [hb])
    exact ih h2

/-! ## Single-spaced texts -/

/-- A line's text: its tokens without the spaces at the end. -/
def lineText (g : List Tok) : List Char := trimEnd (tokText g)

structure Clean (ts : List Tok) : Prop extends TokList ts where
  single : ∀ p ∈ ts.dropLast, p.2 = [' ']
  last : ∀ p ∈ ts.getLast?, p.2 = []
  first : ∀ p ∈ ts, ∀ c ∈ p.1.head?, isWs c = false
  fin' : ∀ p ∈ ts, ∀ c ∈ p.1.getLast?, isWs c = false

theorem infix_flat_mid {α} {a b c s : List α} (h : s <:+: b) : s <:+: a ++ b ++ c := by
  obtain ⟨x, y, rfl⟩ := h
  exact ⟨a ++ x, y ++ c, by simp⟩

theorem endSt_space_end {tok : List Char} (h : endSt false 0 tok = (false, 0)) (hb : ' ' ∉ bareGo false 0 tok) :
    tok.getLast? ≠ some ' ' := by
  intro hl
  have hne : tok ≠ [] := by rintro rfl; simp at hl
  obtain ⟨i, rfl⟩ : ∃ i, tok = i ++ [' '] := by
    refine ⟨tok.dropLast, ?_⟩
    have h1 := List.dropLast_concat_getLast hne
    rw [List.getLast?_eq_some_getLast hne, Option.some.injEq] at hl
    rw [hl] at h1; exact h1.symm
  rw [endSt_append] at h
  rw [bare_append] at hb
  generalize endSt false 0 i = q at h hb
  obtain ⟨b, d⟩ := q
  cases b
  · cases d
    · simp [bareGo] at hb
    · simp [endSt] at h
  · simp [endSt] at h

theorem clean_tokenize {text : List Char} (h : CleanLine text) :
    Clean (tokenize text) ∧ tokText (tokenize text) = text := by
  have hT := tokList_tokenize text
  have hhead : text.head? ≠ some ' ' := by
    intro hh
    have := trim_head text
    rw [h.trim] at this
    exact absurd (this ' ' hh) (by decide)
  obtain ⟨sp, hsp, e⟩ := tokenize_text hhead
  have hlast : ∀ c ∈ text.getLast?, isWs c = false := by
    have := trim_getLast text
    rwa [h.trim] at this
  have hsp0 : sp = [] := by
    cases hs : sp.getLast? with
    | none => simpa using hs
    | some c =>
      exfalso
      have h1 : text.getLast? = some c := by rw [e, List.getLast?_append, hs]; rfl
      have h2 : c = ' ' := hsp c (List.mem_of_getLast? hs)
      exact absurd (hlast c h1) (by rw [h2]; decide)
  rw [hsp0, List.append_nil] at e
  have hchars : ∀ c ∈ tokText (tokenize text), isWs c = true → c = ' ' := by rw [← e]; exact h.ws
  have hwsp : ∀ p ∈ tokenize text, ∀ c ∈ p.1, isWs c = true → c = ' ' := by
    intro p hp c hc
    apply hchars c
    exact List.mem_flatMap.mpr ⟨p, hp, by simp [hc]⟩
  -- the last token has no spaces
  have hl0 : ∀ p ∈ (tokenize text).getLast?, p.2 = [] := by
    intro p hp
    by_cases hp2 : p.2 = []
    · exact hp2
    · exfalso
      obtain ⟨i, hi⟩ : ∃ i, tokenize text = i ++ [p] := List.getLast?_eq_some_iff.mp hp
      have : text.getLast? = some ' ' := by
        rw [e, hi, tokText_append, tokText_cons, tokText_nil, List.append_nil, List.getLast?_append,
          List.getLast?_append, List.getLast?_eq_some_getLast hp2,
          hT.spaces p (by rw [hi]; simp) _ (List.getLast_mem hp2)]
        rfl
      exact absurd (hlast ' ' this) (by decide)
  refine ⟨⟨hT, ?_, hl0, ?_, ?_⟩, e.symm⟩
  · intro p hp
    have h1 := hT.sp p hp
    have hpm := List.dropLast_subset _ hp
    have h2 := hT.spaces p hpm
    match hq : p.2 with
    | [] => exact absurd hq h1
    | [a] => rw [h2 a (by rw [hq]; simp)]
    | a :: b :: r =>
      exfalso
      apply h.single
      rw [e]
      obtain ⟨x, y, hxy⟩ := List.append_of_mem hpm
      rw [hxy, tokText_append, tokText_cons, ← List.append_assoc]
      apply infix_flat_mid
      rw [hq, h2 a (by rw [hq]; simp), h2 b (by rw [hq]; simp)]
      exact ⟨p.1, r, by simp⟩
  · intro p hp c hc
    cases hw : isWs c with
    | false => rfl
    | true =>
      exfalso
      have h2 := hwsp p hp c (List.mem_of_mem_head? hc) hw
      have h3 := hT.bare p hp
      cases hp1 : p.1 with
      | nil => rw [hp1] at hc; simp at hc
      | cons d ds =>
        rw [hp1] at hc h3
        simp at hc
        rw [hc, h2] at h3
        simp [bareGo] at h3
  · intro p hp c hc
    cases hw : isWs c with
    | false => rfl
    | true =>
      exfalso
      have h2 := hwsp p hp c (List.mem_of_getLast? hc) hw
      subst h2
      obtain ⟨x, y, hxy⟩ := List.append_of_mem hp
      by_cases hy : y = []
      · subst hy
        have hpl : p.2 = [] := hl0 p (by rw [hxy, List.getLast?_append]; simp)
        have : text.getLast? = some ' ' := by
          rw [e, hxy, tokText_append, tokText_cons, hpl, List.append_nil, tokText_nil, List.append_nil,
            List.getLast?_append, Option.mem_def.mp hc]
          rfl
        exact absurd (hlast ' ' this) (by decide)
      · have hd : p ∈ (tokenize text).dropLast := by
          rw [hxy, List.dropLast_append_cons, List.dropLast_cons_of_ne_nil hy]; simp
        exact endSt_space_end (hT.fin p hd) (hT.bare p hp) hc

theorem Clean.right {a b : List Tok} (h : Clean (a ++ b)) : Clean b := by
  refine ⟨h.toTokList.right, ?_, ?_, fun p hp => h.first p (by simp [hp]), fun p hp => h.fin' p (by simp [hp])⟩
  · intro p hp
    apply h.single
    have hb : b ≠ [] := by rintro rfl; simp at hp
    rw [List.dropLast_append_of_ne_nil hb]; simp [hp]
  · intro p hp
    apply h.last
    rw [List.getLast?_append, Option.mem_def.mp hp]; rfl

/-- The text of a nonempty group inside a clean token list. -/
theorem lineText_group {g rest : List Tok} (h : Clean (g ++ rest)) (hg : g ≠ []) :
    tokText g = lineText g ++ (if rest = [] then [] else [' ']) ∧ lineText g ≠ [] ∧
      trim (lineText g) = lineText g := by
  obtain ⟨i, p, rfl⟩ : ∃ i p, g = i ++ [p] :=
    ⟨g.dropLast, g.getLast hg, (List.dropLast_concat_getLast hg).symm⟩
  have hp1 : p.1 ≠ [] := h.ne p (by simp)
  have hfin : ∀ c ∈ p.1.getLast?, isWs c = false := h.fin' p (by simp)
  have hp2 : p.2 = if rest = [] then [] else [' '] := by
    by_cases hr : rest = []
    · subst hr
      rw [if_pos rfl]
      exact h.last p (by simp)
    · rw [if_neg hr]
      apply h.single
      rw [List.dropLast_append_of_ne_nil hr]; simp
  have hws : ∀ c ∈ p.2, isWs c = true := by
    intro c hc; rw [h.spaces p (by simp) c hc]; decide
  have e1 : tokText (i ++ [p]) = tokText i ++ p.1 ++ p.2 := by simp
  have e2 : lineText (i ++ [p]) = tokText i ++ p.1 := by
    rw [lineText, e1, trimEnd_append_ws hws, trimEnd_of_getLast]
    intro c hc
    rw [List.getLast?_append] at hc
    cases hl : p.1.getLast? with
    | none => simp at hl; exact absurd hl hp1
    | some d => rw [hl] at hc; simp at hc; subst hc; exact hfin d hl
  refine ⟨by rw [e1, e2, hp2], by rw [e2]; simp [hp1], ?_⟩
  apply trim_of_ends
  · rw [e2]
    intro c hc
    cases i with
    | nil =>
      rw [tokText_nil, List.nil_append] at hc
      exact h.first p (by simp) c hc
    | cons q qs =>
      have hq := h.ne q (by simp)
      rw [tokText_cons, List.append_assoc, List.append_assoc, List.head?_append] at hc
      cases hqh : q.1.head? with
      | none => simp at hqh; exact absurd hqh hq
      | some d => rw [hqh] at hc; simp at hc; subst hc; exact h.first q (by simp) d hqh
  · exact trimEnd_getLast _

theorem join_lineText : ∀ (gs : List (List Tok)), Clean gs.flatten → (∀ g ∈ gs, g ≠ []) →
    joinWith [' '] (gs.map lineText) = tokText gs.flatten := by
  intro gs
  induction gs with
  | nil => intro _ _; rfl
  | cons g gs ih =>
    intro h hne
    rw [List.flatten_cons] at h
    have h1 := lineText_group h (hne g (by simp))
    rw [List.flatten_cons, tokText_append, ← ih h.right (fun x hx => hne x (by simp [hx]))]
    cases gs with
    | nil =>
      rw [h1.1]; simp [joinWith]
    | cons a r =>
      have hfl : ¬ ((a :: r).flatten = []) := by
        have := hne a (by simp)
        simp [this]
      rw [List.map_cons, joinWith_cons _ _ (by simp), h1.1, if_neg hfl]

/-- The lines of a wrapped clean text under one prefix. -/
theorem wrapSingle_clean {w : List Char → Nat} {p : List Char} {lw : Nat} {gs : List (List Tok)}
    (hc : Clean gs.flatten) (hne : ∀ g ∈ gs, g ≠ []) (hg : groups w p p lw gs.flatten = gs) :
    wrapSingle w (joinWith [' '] (gs.map lineText)) p p lw =
      joinWith ['\n'] (gs.map fun g => p ++ lineText g) := by
  rw [join_lineText gs hc hne, wrapSingle_eq, tokenize_tokText hc.toTokList hc.last, hg]
  congr 1
  have : rawLines p p gs = gs.map fun g => p ++ tokText g := by cases gs <;> simp [rawLines]
  rw [this, List.map_map]
  apply List.map_congr_left
  intro g hgm
  simp only [Function.comp]
  have hgne := hne g hgm
  obtain ⟨a, b, rfl⟩ := List.append_of_mem hgm
  rw [List.flatten_append, List.flatten_cons] at hc
  have h1 := lineText_group hc.right hgne
  have h2 : trimEnd (tokText g) ≠ [] := h1.2.1
  rw [trimEnd_append_right h2]; rfl

theorem mergeLines_clean {l : List Char} {rest : List (List Char)} (h : ∀ m ∈ rest, trim m = m) :
    mergeLines l rest = joinWith [' '] (l :: rest) := by
  rw [mergeLines_eq]
  induction rest generalizing l with
  | nil => simp [joinWith]
  | cons m rest ih =>
    rw [joinWith_cons _ _ (by simp), ← ih (fun x hx => h x (by simp [hx])), List.flatMap_cons,
      h m (by simp)]
    simp

/-- Soft lines that were produced by the layout stay. -/
theorem bodyLines_stable {w : List Char → Nat} {p : List Char} {lw : Nat} : ∀ (gs : List (List Tok)),
    gs ≠ [] → Clean gs.flatten → (∀ g ∈ gs, g ≠ []) → groups w p p lw gs.flatten = gs →
    joinWith ['\n'] (bodyLines w p lw p (gs.map lineText)) =
      joinWith ['\n'] (gs.map fun g => p ++ lineText g) := by
  intro gs
  induction gs with
  | nil => intro h; exact absurd rfl h
  | cons g gs ih =>
    intro _ hc hne hg
    have hc' := hc
    rw [List.flatten_cons] at hc'
    have h1 := lineText_group hc' (hne g (by simp))
    rw [List.map_cons, bodyLines, h1.2.2]
    split
    · cases gs with
      | nil => simp [bodyLines]
      | cons a r =>
        rw [joinWith_cons _ _ (bodyLines_ne_nil _ _ _ _ (by simp)),
          ih (by simp) hc'.right (fun x hx => hne x (by simp [hx])) (groups_restart (a := [g]) hg (by simp)),
          List.map_cons (a := g), joinWith_cons _ (p ++ lineText g) (by simp)]
    · have ht : ∀ m ∈ gs.map lineText, trim m = m := by
        intro m hm
        obtain ⟨x, hx, rfl⟩ := List.mem_map.mp hm
        obtain ⟨a, b, rfl⟩ := List.append_of_mem hx
        have := hc'.right
        rw [List.flatten_append, List.flatten_cons] at this
        exact (lineText_group this.right (hne x (by simp))).2.2
      rw [mergeLines_clean ht, joinWith, ← List.map_cons, wrapSingle_clean hc hne hg]

theorem joinWith_append_lines (a b : List (List Char)) (hb : b ≠ []) (ha : a ≠ []) :
    joinWith ['\n'] (a ++ b) = joinWith ['\n'] a ++ ['\n'] ++ joinWith ['\n'] b := by
  induction a with
  | nil => exact absurd rfl ha
  | cons x xs ih =>
    cases xs with
    | nil =>
      rw [List.singleton_append, joinWith_cons _ _ hb]; rfl
    | cons y ys =>
      rw [List.cons_append, joinWith_cons _ _ (by simp), ih (by simp), joinWith_cons _ x (by simp)]
      simp

/-- Clean soft lines merge to a clean text. -/
theorem cleanLine_join {ls : List (List Char)} (h : ∀ l ∈ ls, CleanLine l) (hne : ls ≠ []) :
    CleanLine (joinWith [' '] ls) := by
  induction ls with
  | nil => exact absurd rfl hne
  | cons l r ih =>
    cases r with
    | nil => exact h l (by simp)
    | cons m r =>
      have h1 := h l (by simp)
      have h2 := ih (fun x hx => h x (by simp [hx])) (by simp)
      rw [joinWith_cons _ _ (by simp)]
      generalize joinWith [' '] (m :: r) = t at h2
      have l1 : ∀ c ∈ l.getLast?, isWs c = false := by
        have := trim_getLast l; rwa [h1.trim] at this
      have l0 : ∀ c ∈ l.head?, isWs c = false := by
        have := trim_head l; rwa [h1.trim] at this
      have t1 : ∀ c ∈ t.getLast?, isWs c = false := by
        have := trim_getLast t; rwa [h2.trim] at this
      have t0 : ∀ c ∈ t.head?, isWs c = false := by
        have := trim_head t; rwa [h2.trim] at this
      refine ⟨by simp, ?_, ?_, ?_⟩
      · apply trim_of_ends
        · intro c hc
          rw [List.append_assoc, List.head?_append] at hc
          cases hl : l.head? with
          | none => simp at hl; exact absurd hl h1.ne
          | some d => rw [hl] at hc; simp at hc; subst hc; exact l0 d hl
        · intro c hc
          rw [List.getLast?_append] at hc
          cases hl : t.getLast? with
          | none => simp at hl; exact absurd hl h2.ne
          | some d => rw [hl] at hc; simp at hc; subst hc; exact t1 d hl
      · intro c hc hw
        simp only [List.mem_append, List.mem_singleton] at hc
        rcases hc with (hc | hc) | hc
        · exact h1.ws c hc hw
        · exact hc
        · exact h2.ws c hc hw
      · rintro ⟨x, y, hxy⟩
        have hxy' : x ++ ([' ', ' '] ++ y) = l ++ (' ' :: t) := by simpa using hxy
        rcases List.append_eq_append_iff.mp hxy' with ⟨z, hz1, hz2⟩ | ⟨z, hz1, hz2⟩
        · -- l = x ++ z, [' ',' '] ++ y = z ++ ' ' :: t
          match z, hz1, hz2 with
          | [], _, hz2 =>
            simp only [List.cons_append, List.nil_append, List.cons.injEq, true_and] at hz2
            exact absurd (t0 ' ' (by rw [← hz2]; rfl)) (by decide)
          | [a], hz1, hz2 =>
            simp only [List.cons_append, List.nil_append, List.cons.injEq] at hz2
            exact absurd (l1 a (by rw [hz1]; simp)) (by rw [← hz2.1]; decide)
          | a :: b :: z, hz1, hz2 =>
            simp only [List.cons_append, List.nil_append, List.cons.injEq] at hz2
            exact h1.single ⟨x, z, by rw [hz1, ← hz2.1, ← hz2.2.1]; simp⟩
        · -- x = l ++ z, ' ' :: t = z ++ [' ',' '] ++ y
          match z, hz1, hz2 with
          | [], _, hz2 =>
            simp only [List.cons_append, List.nil_append, List.cons.injEq, true_and] at hz2
            exact absurd (t0 ' ' (by rw [hz2]; rfl)) (by decide)
          | a :: z, _, hz2 =>
            simp only [List.cons_append, List.cons.injEq] at hz2
            exact h2.single ⟨z, y, by rw [hz2.2]; simp⟩

theorem Spec.CleanLine.of_infix {l m : List Char} (h : CleanLine l) (hi : m <:+: l) (hne : m ≠ [])
    (ht : Hongdown.trim m = m) : CleanLine m :=
  ⟨hne, ht, fun c hc => h.ws c (hi.subset hc), fun hs => h.single (hs.trans hi)⟩

/-- The groups of a clean text. -/
structure Lines (w : List Char → Nat) (p : List Char) (lw : Nat) (l : List Char) (gs : List (List Tok)) : Prop where
  ne : gs ≠ []
  clean : Clean gs.flatten
  gne : ∀ g ∈ gs, g ≠ []
  fix : groups w p p lw gs.flatten = gs
  join : joinWith [' '] (gs.map lineText) = l
  line : ∀ g ∈ gs, CleanLine (lineText g) ∧ lineText g <:+: l

theorem lines_of_clean (w : List Char → Nat) (p : List Char) (lw : Nat) {l : List Char} (h : CleanLine l) :
    ∃ gs, Lines w p lw l gs := by
  obtain ⟨hc, ht⟩ := clean_tokenize h
  have hfl := groups_flatten w p p lw (tokenize l)
  have hne : tokenize l ≠ [] := by
    intro hh; rw [hh] at ht; exact h.ne ht.symm
  have hgne := groups_ne (w := w) (p := p) (lw := lw) hne
  have hcl : Clean (groups w p p lw (tokenize l)).flatten := by rw [hfl]; exact hc
  refine ⟨groups w p p lw (tokenize l), groups_ne_nil _ _ _ _ _, hcl, hgne, by rw [hfl], ?_, ?_⟩
  · rw [join_lineText _ hcl hgne, hfl, ht]
  · intro g hg
    have hinf : lineText g <:+: l := by
      obtain ⟨a, b, hab⟩ := List.append_of_mem hg
      have : tokText g <:+: l := by
        rw [← ht, ← hfl, hab, List.flatten_append, List.flatten_cons, tokText_append, tokText_append]
        exact ⟨tokText a.flatten, tokText b.flatten, by simp⟩
      exact (trimEnd_prefix (tokText g)).isInfix.trans this
    obtain ⟨a, b, hab⟩ := List.append_of_mem hg
    have hcl' := hcl
    rw [hab, List.flatten_append, List.flatten_cons] at hcl'
    have h1 := lineText_group hcl'.right (hgne g hg)
    exact ⟨h.of_infix hinf h1.2.1 h1.2.2, hinf⟩

theorem mem_joinWith {sep : List Char} {ls : List (List Char)} {c : Char} (h : c ∈ joinWith sep ls) :
    c ∈ sep ∨ ∃ l ∈ ls, c ∈ l := by
  induction ls with
  | nil => simp [joinWith] at h
  | cons l r ih =>
    cases r with
    | nil => simp only [joinWith] at h; exact Or.inr ⟨l, by simp, h⟩
    | cons m r =>
      rw [joinWith_cons _ _ (by simp)] at h
      simp only [List.mem_append] at h
      rcases h with (h | h) | h
      · exact Or.inr ⟨l, by simp, h⟩
      · exact Or.inl h
      · rcases ih h with h | ⟨x, hx, h⟩
        · exact Or.inl h
        · exact Or.inr ⟨x, by simp [hx], h⟩

/-- The lines into which clean soft lines are wrapped, and their stability. -/
theorem bodyLines_clean {w : List Char → Nat} {p : List Char} {lw : Nat} : ∀ (ls : List (List Char)),
    ls ≠ [] → (∀ l ∈ ls, CleanLine l) →
    ∃ ms : List (List Char), ms ≠ [] ∧ (∀ m ∈ ms, CleanLine m ∧ ∀ c ∈ m, c = ' ' ∨ ∃ l ∈ ls, c ∈ l) ∧
      joinWith ['\n'] (bodyLines w p lw p ls) = joinWith ['\n'] (ms.map (p ++ ·)) ∧
      joinWith ['\n'] (bodyLines w p lw p ms) = joinWith ['\n'] (ms.map (p ++ ·)) ∧
      (ls.length ≠ 1 → ∀ m, ms = [m] → wrapSingle w m p p lw = p ++ m) := by
  intro ls
  induction ls with
  | nil => intro h; exact absurd rfl h
  | cons l rest ih =>
    intro _ hcl
    have hl := hcl l (by simp)
    by_cases hfit : w p + w (trim l) ≤ lw
    · cases rest with
      | nil =>
        refine ⟨[l], by simp, ?_, ?_, ?_, by simp⟩
        · intro m hm
          simp at hm; subst hm
          exact ⟨hl, fun c hc => Or.inr ⟨m, by simp, hc⟩⟩
        · rw [bodyLines, if_pos hfit, hl.trim]; rfl
        · rw [bodyLines, if_pos hfit, hl.trim]; rfl
      | cons m rest =>
        obtain ⟨ms, h1, h2, h3, h4, _⟩ := ih (by simp) (fun x hx => hcl x (by simp [hx]))
        refine ⟨l :: ms, by simp, ?_, ?_, ?_, ?_⟩
        · intro x hx
          rcases List.mem_cons.mp hx with rfl | hx
          · exact ⟨hl, fun c hc => Or.inr ⟨x, by simp, hc⟩⟩
          · refine ⟨(h2 x hx).1, fun c hc => ?_⟩
            rcases (h2 x hx).2 c hc with h | ⟨y, hy, h⟩
            · exact Or.inl h
            · exact Or.inr ⟨y, by simp [hy], h⟩
        · rw [bodyLines, if_pos hfit, hl.trim, joinWith_cons _ _ (bodyLines_ne_nil _ _ _ _ (by simp)), h3,
            List.map_cons, joinWith_cons _ _ (by simp [h1])]
        · rw [bodyLines, if_pos hfit, hl.trim, joinWith_cons _ _ (bodyLines_ne_nil _ _ _ _ h1), h4,
            List.map_cons, joinWith_cons _ _ (by simp [h1])]
        · intro _ x hx
          simp at hx; exact absurd hx.2 h1
    · have htr : ∀ m ∈ rest, trim m = m := fun m hm => (hcl m (by simp [hm])).trim
      have hcj : CleanLine (joinWith [' '] (l :: rest)) := cleanLine_join hcl (by simp)
      obtain ⟨gs, hL⟩ := lines_of_clean w p lw hcj
      have hsing := wrapSingle_clean hL.clean hL.gne hL.fix
      refine ⟨gs.map lineText, by simp [hL.ne], ?_, ?_, ?_, ?_⟩
      · intro m hm
        obtain ⟨g, hg, rfl⟩ := List.mem_map.mp hm
        refine ⟨(hL.line g hg).1, fun c hc => ?_⟩
        rcases mem_joinWith ((hL.line g hg).2.subset hc) with h | h
        · left; simpa using h
        · exact Or.inr h
      · rw [bodyLines, if_neg hfit, hl.trim, mergeLines_clean htr, joinWith, ← hL.join, hsing, List.map_map]
        rfl
      · rw [bodyLines_stable gs hL.ne hL.clean hL.gne hL.fix, List.map_map]; rfl
      · intro _ m hm
        rw [hm] at hsing
        have : gs.map (fun g => p ++ lineText g) = [p ++ m] := by
          rw [show (fun g => p ++ lineText g) = (p ++ ·) ∘ lineText from rfl, ← List.map_map, hm]; rfl
        rw [this] at hsing
        exact hsing

/-- One segment of clean soft lines. -/
theorem wrapSegment_stable (w : List Char → Nat) {p : List Char} (lw : Nat) {text : List Char}
    (hcl : ∀ l ∈ splitOn '\x00' text, CleanLine l) :
    ∃ ms : List (List Char), ms ≠ [] ∧ (∀ m ∈ ms, CleanLine m ∧ ∀ c ∈ m, c = ' ' ∨ c ∈ text ∧ c ≠ '\x00') ∧
      wrapSegment w text p p lw = joinWith ['\n'] (ms.map (p ++ ·)) ∧
      wrapSegment w (joinWith ['\x00'] ms) p p lw = joinWith ['\n'] (ms.map (p ++ ·)) := by
  have hnn : ∀ {ls : List (List Char)}, (∀ l ∈ ls, CleanLine l) → ∀ l ∈ ls, trim l ≠ [] := by
    intro ls h l hl; rw [(h l hl).trim]; exact (h l hl).ne
  have second : ∀ ms : List (List Char), ms ≠ [] → (∀ m ∈ ms, CleanLine m) → (∀ m ∈ ms, '\x00' ∉ m) →
      wrapSegment w (joinWith ['\x00'] ms) p p lw =
        if ms.length = 1 then wrapSingle w (joinWith ['\x00'] ms) p p lw
        else joinWith ['\n'] (bodyLines w p lw p ms) := by
    intro ms h1 h2 h3
    have hsp : splitOn nul (joinWith ['\x00'] ms) = ms := splitOn_join h1 h3
    rw [wrapSegment, hsp]
    by_cases hlen : ms.length = 1
    · simp [hlen]
    · simp only [hlen, if_false]
      rw [wrapLines_body w p lw ms (hnn h2) h1]; simp
  have first := second (splitOn '\x00' text) (splitOn_ne_nil _ _) hcl
    (fun l hl => splitOn_not_mem _ _ l hl)
  rw [join_splitOn] at first
  by_cases hlen : (splitOn '\x00' text).length = 1
  · rw [if_pos hlen] at first
    have hone : splitOn '\x00' text = [text] := by
      have hj := join_splitOn '\x00' text
      cases h : splitOn '\x00' text with
      | nil => exact absurd h (splitOn_ne_nil _ _)
      | cons a r =>
        rw [h] at hlen hj
        cases r with
        | nil => rw [joinWith] at hj; rw [hj]
        | cons _ _ => simp at hlen
    have hct : CleanLine text := hcl text (by rw [hone]; simp)
    have hnm : '\x00' ∉ text := splitOn_not_mem '\x00' text text (by rw [hone]; simp)
    obtain ⟨gs, hL⟩ := lines_of_clean w p lw hct
    have hsing := wrapSingle_clean hL.clean hL.gne hL.fix
    rw [hL.join] at hsing
    have hmap : (gs.map lineText).map (p ++ ·) = gs.map fun g => p ++ lineText g := by
      rw [List.map_map]; rfl
    refine ⟨gs.map lineText, by simp [hL.ne], ?_, ?_, ?_⟩
    · intro m hm
      obtain ⟨g, hg, rfl⟩ := List.mem_map.mp hm
      refine ⟨(hL.line g hg).1, fun c hc => Or.inr ⟨(hL.line g hg).2.subset hc, ?_⟩⟩
      rintro rfl
      exact hnm ((hL.line g hg).2.subset hc)
    · rw [first, hsing, hmap]
    · rw [second _ (by simp [hL.ne])
        (fun m hm => by obtain ⟨g, hg, rfl⟩ := List.mem_map.mp hm; exact (hL.line g hg).1)
        (fun m hm hz => by
          obtain ⟨g, hg, rfl⟩ := List.mem_map.mp hm
          exact hnm ((hL.line g hg).2.subset hz))]
      split
      · next h1 =>
        have : ∃ m, gs.map lineText = [m] := by
          match hgm : gs.map lineText, h1 with
          | [m], _ => exact ⟨m, rfl⟩
        obtain ⟨m, hm⟩ := this
        have hj := hL.join
        rw [hm, joinWith] at hj
        rw [hm, joinWith, hj, hsing, ← hmap, hm, hj]
      · rw [bodyLines_stable gs hL.ne hL.clean hL.gne hL.fix, hmap]
  · rw [if_neg hlen] at first
    obtain ⟨ms, h1, h2, h3, h4, h5⟩ := bodyLines_clean (w := w) (p := p) (lw := lw) (splitOn '\x00' text)
      (splitOn_ne_nil _ _) hcl
    have hnz : ∀ m ∈ ms, '\x00' ∉ m := by
      intro m hm hz
      rcases (h2 m hm).2 _ hz with h | ⟨l, hl, h⟩
      · exact absurd h (by decide)
      · exact splitOn_not_mem _ _ l hl h
    refine ⟨ms, h1, ?_, ?_, ?_⟩
    · intro m hm
      refine ⟨(h2 m hm).1, fun c hc => ?_⟩
      rcases (h2 m hm).2 c hc with h | ⟨l, hl, h⟩
      · exact Or.inl h
      · refine Or.inr ⟨mem_splitOn_subset hl h, ?_⟩
        rintro rfl
        exact hnz m hm hc
    · rw [first, h3]
    · rw [second ms h1 (fun m hm => (h2 m hm).1) hnz]
      split
      · next hl1 =>
        have : ∃ m, ms = [m] := by
          match ms, hl1 with
          | [m], _ => exact ⟨m, rfl⟩
        obtain ⟨m, hm⟩ := this
        rw [hm, joinWith, h5 hlen m hm]; rfl
      · exact h4

/-! ## Lines are filled -/

/-- A line is ended only because the next token does not fit. -/
theorem fill_break {w : List Char → Nat} {p : List Char} {lw : Nat} (ts : List Tok) : ∀ cur a g1 g2 c,
    fill w p lw cur ts = a ++ g1 :: g2 :: c →
    ∃ t r, g2 = t :: r ∧ lw < w (p ++ tokText g1) + w t.1 + t.2.length := by
  induction ts with
  | nil =>
    intro cur a g1 g2 c h
    have := congrArg List.length h
    simp [fill] at this
    omega
  | cons t ts ih =>
    intro cur a g1 g2 c h
    rw [fill] at h
    split at h
    · exact ih _ _ _ _ _ h
    · next hn =>
      cases a with
      | nil =>
        rw [List.nil_append, List.cons.injEq] at h
        obtain ⟨h1, h2⟩ := h
        subst h1
        rw [not_or] at hn
        have hhead : ∀ (ts : List Tok) (cur : List Tok), ∃ r rest, fill w p lw cur ts = (cur ++ r) :: rest := by
          intro ts
          induction ts with
          | nil => intro cur; exact ⟨[], [], by simp [fill]⟩
          | cons x xs ihx =>
            intro cur
            rw [fill]
            split
            · obtain ⟨r, rest, e⟩ := ihx (cur ++ [x])
              exact ⟨x :: r, rest, by rw [e]; simp⟩
            · exact ⟨[], fill w p lw [x] xs, by simp⟩
        obtain ⟨r, rest, e⟩ := hhead ts [t]
        rw [e, List.cons.injEq] at h2
        exact ⟨t, r, by rw [← h2.1]; rfl, by omega⟩
      | cons x xs =>
        rw [List.cons_append, List.cons.injEq] at h
        exact ih _ _ _ _ _ h.2

/-- All lines but the last end outside code spans and brackets. -/
theorem endsOutside_tokText {ts : List Tok} (h : ∀ q ∈ ts, endSt false 0 q.1 = (false, 0))
    (hs : ∀ q ∈ ts, ∀ c ∈ q.2, c = ' ') : endSt false 0 (tokText ts) = (false, 0) := by
  have hsp : ∀ l : List Char, (∀ c ∈ l, c = ' ') → endSt false 0 l = (false, 0) := by
    intro l
    induction l with
    | nil => intro _; rfl
    | cons c cs ih =>
      intro hh
      have := hh c (by simp); subst this
      simp only [endSt]
      simpa using ih (fun d hd => hh d (by simp [hd]))
  induction ts with
  | nil => rfl
  | cons q qs ih =>
    rw [tokText_cons, endSt_append, endSt_append, h q (by simp)]
    simp only [hsp q.2 (hs q (by simp))]
    exact ih (fun x hx => h x (by simp [hx])) (fun x hx => hs x (by simp [hx]))

end Hongdown
