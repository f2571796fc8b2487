import Verif.Spec.Table
import Verif.Spec.Inline
import Verif.Model.Table
import Verif.Lemmas.Code
import Verif.Lemmas.WrapLayout

set_option linter.unusedSimpArgs false

namespace Hongdown
open Model Spec

/-! ### Rows -/

/-- A table row from its formatted cells. -/
def rowLine (fs : List (List Char)) : List Char :=
  '|' :: (fs.map fun f => ' ' :: f ++ [' ', '|']).flatten

theorem barePipes_prev {p q : Option Char} (hp : p ≠ some '\\') (hq : q ≠ some '\\') (s : List Char) :
    barePipes p s = barePipes q s := by
  cases s with
  | nil => rfl
  | cons c cs => simp [barePipes, hp, hq]

theorem pipeColumnsGo_bare (w : List Char → Nat) (f rest : List Char) :
    ∀ acc, barePipes acc.head? f = 0 →
    pipeColumnsGo w acc (f ++ rest) = pipeColumnsGo w (f.reverse ++ acc) rest := by
  induction f with
  | nil => intro acc _; rfl
  | cons c cs ih =>
    intro acc h
    simp only [barePipes] at h
    have h1 : ¬ (c = '|' ∧ acc.head? ≠ some '\\') := by
      intro hc; rw [if_pos hc] at h; omega
    rw [List.cons_append, pipeColumnsGo, if_neg h1, List.nil_append,
      ih (c :: acc) (by simp only [List.head?_cons]; omega)]
    simp

theorem splitPipesGo_bare (f rest : List Char) :
    ∀ acc, barePipes acc.head? f = 0 →
    splitPipesGo acc (f ++ rest) = splitPipesGo (f.reverse ++ acc) rest := by
  induction f with
  | nil => intro acc _; rfl
  | cons c cs ih =>
    intro acc h
    simp only [barePipes] at h
    have h1 : ¬ (c = '|' ∧ acc.head? ≠ some '\\') := by
      intro hc; rw [if_pos hc] at h; omega
    rw [List.cons_append, splitPipesGo, if_neg h1,
      ih (c :: acc) (by simp only [List.head?_cons]; omega)]
    simp

theorem pipeColumnsGo_pipe (w : List Char → Nat) {acc : List Char} (h : acc.head? ≠ some '\\')
    (rest : List Char) :
    pipeColumnsGo w acc ('|' :: rest) = w acc.reverse :: pipeColumnsGo w ('|' :: acc) rest := by
  rw [pipeColumnsGo, if_pos ⟨rfl, h⟩]; rfl

theorem splitPipesGo_pipe {acc : List Char} (h : acc.head? ≠ some '\\') (rest : List Char) :
    splitPipesGo acc ('|' :: rest) = acc.reverse :: splitPipesGo [] rest := by
  rw [splitPipesGo, if_pos ⟨rfl, h⟩]

theorem barePipes_append (a b : List Char) : ∀ p, barePipes p (a ++ b) =
    barePipes p a + barePipes (if a = [] then p else a.getLast?) b := by
  induction a with
  | nil => intro p; simp [barePipes]
  | cons c cs ih =>
    intro p
    rw [List.cons_append, barePipes, barePipes, ih, Nat.add_assoc]
    congr 2
    cases cs with
    | nil => simp
    | cons d ds => simp [List.getLast?_cons_cons]

theorem barePipes_spaced {f : List Char} (h : barePipes none f = 0) :
    barePipes (some '|') (' ' :: f ++ [' ']) = 0 := by
  rw [List.cons_append, barePipes, if_neg (by simp), barePipes_append,
    barePipes_prev (q := none) (by simp) (by simp), h]
  simp [barePipes]

theorem pipeColumns_cells {w : List Char → Nat} (hw : WidthOk w) (hp : w ['|'] = 1)
    (fs : List (List Char)) (h : ∀ f ∈ fs, barePipes none f = 0) :
    ∀ acc x, w ('|' :: acc).reverse = x + 1 →
    x :: pipeColumnsGo w ('|' :: acc) ((fs.map fun f => ' ' :: f ++ [' ', '|']).flatten) =
      columnsAt x (fs.map w) := by
  induction fs with
  | nil => intro acc x _; simp [pipeColumnsGo, columnsAt]
  | cons f fs ih =>
    intro acc x hx
    have e : ((f :: fs).map fun f => ' ' :: f ++ [' ', '|']).flatten =
        (' ' :: f ++ [' ']) ++ '|' :: ((fs.map fun f => ' ' :: f ++ [' ', '|']).flatten) := by simp
    rw [e, pipeColumnsGo_bare w (' ' :: f ++ [' ']) _ ('|' :: acc) (barePipes_spaced (h f (by simp))),
      pipeColumnsGo_pipe w (by simp)]
    have hc : w ('|' :: ((' ' :: f ++ [' ']).reverse ++ '|' :: acc)).reverse = x + w f + 3 + 1 := by
      have : ('|' :: ((' ' :: f ++ [' ']).reverse ++ '|' :: acc)).reverse =
        ('|' :: acc).reverse ++ ' ' :: (f ++ ' ' :: ['|']) := by simp
      rw [this, hw.space, hw.space, hp]; omega
    have hc2 : w ((' ' :: f ++ [' ']).reverse ++ '|' :: acc).reverse = x + w f + 3 := by
      have : ((' ' :: f ++ [' ']).reverse ++ '|' :: acc).reverse =
        ('|' :: acc).reverse ++ ' ' :: (f ++ ' ' :: []) := by simp
      rw [this, hw.space, hw.space, hw.nil]
      omega
    rw [hc2, ih (fun g hg => h g (by simp [hg])) _ _ hc, List.map_cons, columnsAt]

theorem pipeColumns_row {w : List Char → Nat} (hw : WidthOk w) (hp : w ['|'] = 1)
    {pre : List Char} (hpre : PfxOk pre) (hb : barePipes none pre = 0)
    (hl : pre.getLast? ≠ some '\\')
    (fs : List (List Char)) (h : ∀ f ∈ fs, barePipes none f = 0) :
    pipeColumns w (pre ++ rowLine fs) = columnsAt (w pre) (fs.map w) := by
  rw [pipeColumns, pipeColumnsGo_bare w _ _ _ (by simpa using hb), rowLine,
    pipeColumnsGo_pipe w (by simpa using hl)]
  have := pipeColumns_cells hw hp fs h (pre.reverse ++ []) (w pre)
    (by simp [hw.append hpre, hp])
  rw [← this]; simp

/-! ### Reading rows -/

theorem splitPipes_cells (fs : List (List Char)) (h : ∀ f ∈ fs, barePipes none f = 0) :
    splitPipesGo [] ((fs.map fun f => ' ' :: f ++ [' ', '|']).flatten) =
      fs.map (fun f => ' ' :: f ++ [' ']) ++ [[]] := by
  induction fs with
  | nil => simp [splitPipesGo]
  | cons f fs ih =>
    have e : ((f :: fs).map fun f => ' ' :: f ++ [' ', '|']).flatten =
        (' ' :: f ++ [' ']) ++ '|' :: ((fs.map fun f => ' ' :: f ++ [' ', '|']).flatten) := by simp
    rw [e, splitPipesGo_bare _ _ _ (by
      rw [barePipes_prev (q := some '|') (by simp) (by simp)]
      exact barePipes_spaced (h f (by simp))), splitPipesGo_pipe (by simp),
      ih (fun g hg => h g (by simp [hg]))]
    simp

theorem strip_append_blank {s t : List Char} (h : ∀ c ∈ t, isBlankChar c = true) :
    strip (s ++ t) = strip s := by
  have h1 : ∀ a b : List Char, (∀ c ∈ a, isBlankChar c = true) →
      (a ++ b).dropWhile isBlankChar = b.dropWhile isBlankChar := by
    intro a b ha
    induction a with
    | nil => rfl
    | cons x xs ih =>
      rw [List.cons_append, List.dropWhile_cons, if_pos (ha x (by simp)),
        ih (fun c hc => ha c (by simp [hc]))]
  have h2 : ∀ a b : List Char, (∀ c ∈ b, isBlankChar c = true) →
      (∃ c ∈ a, isBlankChar c = false) →
      (a ++ b).dropWhile isBlankChar = a.dropWhile isBlankChar ++ b := by
    intro a b hb ⟨c, hc, hcb⟩
    induction a with
    | nil => simp at hc
    | cons x xs ih =>
      rw [List.cons_append, List.dropWhile_cons, List.dropWhile_cons]
      by_cases hx : isBlankChar x
      · rw [if_pos hx, if_pos hx]
        rcases List.mem_cons.mp hc with rfl | hc
        · rw [hx] at hcb; exact absurd hcb (by decide)
        · exact ih hc
      · rw [if_neg hx, if_neg hx]; rfl
  by_cases ha : ∃ c ∈ s, isBlankChar c = false
  · rw [strip, strip, h2 s t h ha, List.reverse_append, h1 _ _ (by simpa using h)]
  · have hs : ∀ c ∈ s, isBlankChar c = true := by
      intro c hc
      cases hb : isBlankChar c with
      | true => rfl
      | false => exact absurd ⟨c, hc, hb⟩ ha
    have hs0 : s.dropWhile isBlankChar = [] := by simpa using h1 s [] hs
    have ht0 : t.dropWhile isBlankChar = [] := by simpa using h1 t [] h
    rw [strip, strip, h1 s t hs, hs0, ht0]

theorem strip_blanks {a b s : List Char} (ha : ∀ c ∈ a, isBlankChar c = true)
    (hb : ∀ c ∈ b, isBlankChar c = true) : strip (a ++ s ++ b) = strip s := by
  rw [strip_append_blank hb]
  induction a with
  | nil => rfl
  | cons x xs ih =>
    rw [List.cons_append, strip_blank_cons (ha x (by simp)), ih (fun c hc => ha c (by simp [hc]))]

theorem splitPipes_row {pre : List Char} (hb : barePipes none pre = 0)
    (hl : pre.getLast? ≠ some '\\')
    (fs : List (List Char)) (h : ∀ f ∈ fs, barePipes none f = 0) :
    splitPipes (pre ++ rowLine fs) = pre :: (fs.map (fun f => ' ' :: f ++ [' ']) ++ [[]]) := by
  rw [splitPipes, splitPipesGo_bare _ _ _ (by simpa using hb), rowLine,
    splitPipesGo_pipe (by simpa using hl), splitPipes_cells fs h]
  simp

theorem formatCell_padding (w : List Char → Nat) (c : List Char) (n : Nat) (aligns : List Align) (i : Nat) :
    ∃ x y, ' ' :: formatCell w c n (aligns.getD i .none) ++ [' '] = spaces (x + 1) ++ c ++ spaces (y + 1) ∧
      PaddingFits aligns[i]? x y := by
  have hs : ∀ k, spaces (k + 1) = ' ' :: spaces k := fun k => List.replicate_succ
  have hs' : ∀ k, spaces (k + 1) = spaces k ++ [' '] := fun k => List.replicate_succ'
  have left : ∃ x y, ' ' :: (c ++ spaces (n - w c)) ++ [' '] = spaces (x + 1) ++ c ++ spaces (y + 1) ∧ x = 0 :=
    ⟨0, n - w c, by rw [hs' (n - w c), hs 0]; simp [spaces], rfl⟩
  rw [List.getD_eq_getElem?_getD]
  cases aligns[i]? with
  | none => exact left
  | some a => cases a with
    | none => exact left
    | left => exact left
    | right => exact ⟨n - w c, 0, by simp only [Option.getD_some, formatCell]; rw [hs (n - w c), hs' 0]; simp [spaces], rfl⟩
    | center =>
      refine ⟨(n - w c) / 2, (n - w c) - (n - w c) / 2, ?_, ?_⟩
      · simp only [Option.getD_some, formatCell]; rw [hs ((n - w c) / 2), hs' (n - w c - (n - w c) / 2)]; simp
      · simp only [PaddingFits]; omega

theorem readRow_row (fs : List (List Char)) (h : ∀ f ∈ fs, barePipes none f = 0) :
    readRow (rowLine fs) = some (fs.map strip) := by
  have : splitPipes (rowLine fs) = [] :: (fs.map (fun f => ' ' :: f ++ [' ']) ++ [[]]) := by
    rw [splitPipes, rowLine, splitPipesGo_pipe (by simp), splitPipes_cells fs h]; rfl
  rw [readRow, this]
  have h1 : ∀ f : List Char, strip (' ' :: f ++ [' ']) = strip f := fun f =>
    strip_blanks (a := [' ']) (b := [' ']) (by simp [isBlankChar]) (by simp [isBlankChar])
  have h0 : strip [] = [] := rfl
  simp only [List.getLast?_append, List.dropLast_concat, List.map_map]
  simp only [List.getLast?_singleton, Option.some_or, Option.map_some, h0, and_self, if_true]
  congr 1
  apply List.map_congr_left
  intro f _; exact h1 f

/-! ### Cells -/

theorem strip_formatCell (w : List Char → Nat) (c : List Char) (n : Nat) (a : Align) :
    strip (formatCell w c n a) = strip c := by
  have hs : ∀ k, ∀ d ∈ spaces k, isBlankChar d = true := by
    intro k d hd; rw [List.eq_of_mem_replicate hd]; rfl
  cases a with
  | right => simpa [formatCell] using strip_blanks (a := spaces (n - w c)) (b := []) (hs _) (by simp)
  | center => exact strip_blanks (hs _) (hs _)
  | none => exact strip_append_blank (hs _)
  | left => exact strip_append_blank (hs _)

theorem width_formatCell {w : List Char → Nat} (hw : WidthOk w) {c : List Char} {n : Nat}
    (h : w c ≤ n) (a : Align) : w (formatCell w c n a) = n := by
  have hs : ∀ k, ∀ d ∈ spaces k, d = ' ' := fun k d hd => List.eq_of_mem_replicate hd
  have hl : ∀ k, (spaces k).length = k := fun k => by simp [spaces]
  have hpre : ∀ k s, w (spaces k ++ s) = k + w s := by
    intro k s
    induction k with
    | zero => simp [spaces]
    | succ k ih =>
      have := hw.space [] (spaces k ++ s)
      rw [show spaces (k + 1) = ' ' :: spaces k from List.replicate_succ, List.cons_append,
        ← List.nil_append (' ' :: _), this, ih, hw.nil]
      omega
  cases a with
  | right => rw [formatCell, hpre]; omega
  | center => rw [formatCell, hw.spaces _ (hs _), hpre, hl]; omega
  | none => simp only [formatCell]; rw [hw.spaces _ (hs _), hl]; omega
  | left => simp only [formatCell]; rw [hw.spaces _ (hs _), hl]; omega

theorem barePipes_spaces (k : Nat) {p : Option Char} : barePipes p (spaces k) = 0 := by
  induction k generalizing p with
  | zero => rfl
  | succ k ih => rw [show spaces (k + 1) = ' ' :: spaces k from List.replicate_succ, barePipes, ih]; simp

theorem barePipes_formatCell (w : List Char → Nat) {c : List Char} (h : barePipes none c = 0) (n : Nat)
    (a : Align) : barePipes none (formatCell w c n a) = 0 := by
  have hs : ∀ k s, barePipes none s = 0 → barePipes none (spaces k ++ s) = 0 := by
    intro k s hs
    rw [barePipes_append, barePipes_spaces]
    cases k with
    | zero => simpa [spaces] using hs
    | succ k =>
      rw [barePipes_prev (q := none) _ (by simp), hs]
      simp [spaces, List.getLast?_replicate]
  cases a with
  | right => exact hs _ _ h
  | center => rw [formatCell, barePipes_append, hs _ _ h, barePipes_spaces]
  | none => simp only [formatCell]; rw [barePipes_append, h, barePipes_spaces]
  | left => simp only [formatCell]; rw [barePipes_append, h, barePipes_spaces]

/-! ### Column widths -/

theorem widenRow_get (w : List Char → Nat) (xs : List Nat) (cs : List (List Char)) (i : Nat) :
    (widenRow w xs cs)[i]? = xs[i]?.map fun x => match cs[i]? with
      | none => x
      | some c => max x (w c) := by
  induction xs generalizing cs i with
  | nil => simp [widenRow]
  | cons x xs ih =>
    cases cs with
    | nil => simp [widenRow]
    | cons c cs =>
      cases i with
      | zero => simp [widenRow]
      | succ i => simpa [widenRow] using ih cs i

theorem widenRows (w : List Char → Nat) (rows : List (List (List Char))) :
    ∀ acc, (rows.foldl (widenRow w) acc).length = acc.length ∧
    ∀ (i x : Nat), (rows.foldl (widenRow w) acc)[i]? = some x →
      (∃ a, acc[i]? = some a ∧ a ≤ x ∧ (x = a ∨ ∃ r ∈ rows, ∃ c, r[i]? = some c ∧ w c = x)) ∧
      ∀ r ∈ rows, ∀ c, r[i]? = some c → w c ≤ x := by
  induction rows with
  | nil => intro acc; simp
  | cons r rows ih =>
    intro acc
    obtain ⟨h1, h2⟩ := ih (widenRow w acc r)
    have hlen : (widenRow w acc r).length = acc.length := by
      clear ih h1 h2
      induction acc generalizing r with
      | nil => rfl
      | cons x xs ih => cases r <;> simp [widenRow, ih]
    refine ⟨by rw [List.foldl_cons, h1, hlen], ?_⟩
    intro i x hx
    obtain ⟨⟨a, ha, hax, hx2⟩, h3⟩ := h2 i x hx
    rw [widenRow_get] at ha
    cases hac : acc[i]? with
    | none => rw [hac] at ha; simp at ha
    | some b =>
      rw [hac] at ha
      simp only [Option.map_some, Option.some.injEq] at ha
      cases hr : r[i]? with
      | none =>
        rw [hr] at ha
        simp only at ha
        subst ha
        refine ⟨⟨b, rfl, hax, ?_⟩, ?_⟩
        · rcases hx2 with h | ⟨r', hr', c, hc⟩
          · exact Or.inl h
          · exact Or.inr ⟨r', by simp [hr'], c, hc⟩
        · intro r' hr' c hc
          rcases List.mem_cons.mp hr' with rfl | hr'
          · rw [hr] at hc; simp at hc
          · exact h3 r' hr' c hc
      | some d =>
        rw [hr] at ha
        simp only at ha
        refine ⟨⟨b, rfl, by omega, ?_⟩, ?_⟩
        · rcases hx2 with h | ⟨r', hr', c, hc⟩
          · rcases Nat.le_total b (w d) with hb | hb
            · exact Or.inr ⟨r, by simp, d, hr, by omega⟩
            · exact Or.inl (by omega)
          · exact Or.inr ⟨r', by simp [hr'], c, hc⟩
        · intro r' hr' c hc
          rcases List.mem_cons.mp hr' with rfl | hr'
          · rw [hr] at hc; simp only [Option.some.injEq] at hc; subst hc; omega
          · exact h3 r' hr' c hc

theorem colWidths_spec (w : List Char → Nat) (n : Nat) (rows : List (List (List Char))) :
    (colWidths w n rows).length = n ∧
    ∀ (i x : Nat), (colWidths w n rows)[i]? = some x → 3 ≤ x ∧
      (x = 3 ∨ ∃ r ∈ rows, ∃ c, r[i]? = some c ∧ w c = x) ∧
      ∀ r ∈ rows, ∀ c, r[i]? = some c → w c ≤ x := by
  obtain ⟨h1, h2⟩ := widenRows w rows (List.replicate n 0)
  refine ⟨by simp [colWidths, h1], ?_⟩
  intro i x hx
  rw [colWidths, List.getElem?_map, Option.map_eq_some_iff] at hx
  obtain ⟨y, hy, rfl⟩ := hx
  obtain ⟨⟨a, ha, hay, hy2⟩, h3⟩ := h2 i y hy
  have ha0 : a = 0 := by
    rw [List.getElem?_replicate] at ha
    split at ha <;> simp_all
  refine ⟨by omega, ?_, fun r hr c hc => Nat.le_trans (h3 r hr c hc) (Nat.le_max_right _ _)⟩
  rcases Nat.le_total y 3 with h | h
  · exact Or.inl (Nat.max_eq_left h)
  · rcases hy2 with h' | ⟨r, hr, c, hc, hcy⟩
    · exact Or.inl (by omega)
    · exact Or.inr ⟨r, hr, c, hc, by omega⟩

/-! ### The delimiter row -/

theorem readDelim_delimCell {n : Nat} (h : 3 ≤ n) (a : Align) : readDelim (delimCell n a) = some a := by
  have hf : ∀ k, (List.replicate k '-').filter (· ≠ ':') = List.replicate k '-' := by
    intro k; rw [List.filter_eq_self]; intro c hc; rw [List.eq_of_mem_replicate hc]; decide
  have ha : ∀ k, (List.replicate k '-').any (· ≠ '-') = false := by
    intro k; rw [List.any_eq_false]; intro c hc; rw [List.eq_of_mem_replicate hc]; decide
  obtain ⟨m, rfl⟩ : ∃ m, n = m + 3 := ⟨n - 3, by omega⟩
  cases a with
  | none =>
    rw [delimCell, readDelim, hf, ha]
    simp [List.replicate_succ, List.getLast?_cons, List.getLast?_replicate]
    split <;> simp
  | left =>
    rw [delimCell, readDelim, List.filter_cons_of_neg (by decide), hf, ha]
    simp [List.replicate_succ, List.getLast?_cons, List.getLast?_replicate]
    split <;> simp
  | right =>
    rw [delimCell, readDelim, List.filter_append, hf, show [':'].filter (· ≠ ':') = [] by decide,
      List.append_nil, ha]
    simp [List.replicate_succ, List.getLast?_cons]
  | center =>
    rw [delimCell, readDelim, List.cons_append, List.filter_cons_of_neg (by decide),
      List.filter_append, hf, show [':'].filter (· ≠ ':') = [] by decide,
      List.append_nil, ha]
    simp [List.replicate_succ, List.getLast?_cons]

theorem delimCell_chars {n : Nat} {a : Align} {c : Char} (h : c ∈ delimCell n a) : c = '-' ∨ c = ':' := by
  cases a <;> simp [delimCell, List.mem_replicate] at h <;> grind

theorem delimCell_length {n : Nat} (h : 3 ≤ n) (a : Align) : (delimCell n a).length = n := by
  cases a <;> simp [delimCell] <;> omega

theorem barePipes_of_not_mem {s : List Char} (h : '|' ∉ s) : ∀ p, barePipes p s = 0 := by
  induction s with
  | nil => intro p; rfl
  | cons c cs ih =>
    intro p
    simp only [List.mem_cons, not_or] at h
    rw [barePipes, ih h.2, if_neg (fun hc => h.1 hc.1.symm)]

theorem map_mapIdx' {α β γ : Type} (g : β → γ) (f : Nat → α → β) (l : List α) :
    (l.mapIdx f).map g = l.mapIdx fun i a => g (f i a) := by
  apply List.ext_getElem?
  intro i
  simp [Function.comp_def]

theorem rowText_eq (w : List Char → Nat) (widths : List Nat) (aligns : List Align)
    (cells : List (List Char)) :
    rowText w widths aligns cells = rowLine (cells.mapIdx fun i cell =>
      formatCell w cell (widths.getD i 3) (aligns.getD i .none)) ++ ['\n'] := by
  simp [rowText, rowLine, map_mapIdx']

theorem delimText_eq (widths : List Nat) (aligns : List Align) :
    delimText widths aligns =
      rowLine (aligns.mapIdx fun i a => delimCell (widths.getD i 3) a) ++ ['\n'] := by
  simp [delimText, rowLine, map_mapIdx']

theorem addReferences_fields (rs : List Ref) : ∀ st : St,
    (addReferences st rs).output = st.output ∧ (addReferences st rs).warnings = st.warnings ∧
    (addReferences st rs).inBlockQuote = st.inBlockQuote := by
  induction rs with
  | nil => intro st; exact ⟨rfl, rfl, rfl⟩
  | cons r rs ih =>
    intro st
    have h : (addReference st r).output = st.output ∧ (addReference st r).warnings = st.warnings ∧
        (addReference st r).inBlockQuote = st.inBlockQuote := by
      simp only [addReference]
      repeat' split
      all_goals exact ⟨rfl, rfl, rfl⟩
    have := ih (addReference st r)
    rw [h.1, h.2.1, h.2.2] at this
    exact this

theorem tableText_eq (w : List Char → Nat) (quote : Bool) (aligns : List Align)
    (header : List (List Char)) (data : List (List (List Char))) :
    tableText w quote aligns (header :: data) =
      let widths := colWidths w aligns.length (header :: data)
      let q := if quote then ['>', ' '] else []
      let row := fun cells : List (List Char) => q ++ rowLine (cells.mapIdx fun i cell =>
        formatCell w cell (widths.getD i 3) (aligns.getD i .none))
      unlines (row header :: (q ++ rowLine (aligns.mapIdx fun i a => delimCell (widths.getD i 3) a)) ::
        data.map row) := by
  simp only [tableText, rowText_eq, delimText_eq, unlines_cons]
  simp [unlines, List.flatMap, Function.comp_def]

theorem strip_delimCell {n : Nat} (h : 3 ≤ n) (a : Align) : strip (delimCell n a) = delimCell n a := by
  apply strip_of_ends
  · intro c hc
    have := delimCell_chars (List.mem_of_mem_head? hc)
    rcases this with rfl | rfl <;> decide
  · intro c hc
    have := delimCell_chars (List.mem_of_mem_getLast? hc)
    rcases this with rfl | rfl <;> decide

/-! ### Warnings -/

theorem countPipes_eq (s : List Char) : ∀ p, countPipes p s = barePipes p s := by
  induction s with
  | nil => intro p; rfl
  | cons c cs ih => intro p; rw [countPipes, barePipes, ih]

theorem isSeparator_eq (line : List Char) :
    isSeparator line = line.all fun c => c = '|' || c = '-' || c = ':' || c = ' ' := by
  rw [isSeparator]
  congr 1
  funext c
  rw [Bool.eq_iff_iff]
  simp [or_assoc]

theorem tableLineWarning_isSome (cols start : Nat) (line : List Char) :
    (tableLineWarning cols start line).isSome = true ↔ isSeparator line = false ∧
      (barePipes none line > cols + 1 ∨ barePipes none line < cols) := by
  rw [tableLineWarning, ← isSeparator_eq, countPipes_eq]
  cases isSeparator line
  · simp only [Bool.false_eq_true, if_false]
    split
    · simp; omega
    · split
      · simp; omega
      · simp; omega
  · simp

theorem tableWarnings_iff (src : List (List Char)) (p : Pos) (cols n : Nat) :
    (∃ v ∈ tableWarnings src p cols, v.line = n) ↔
      p.startLine ≠ 0 ∧ p.startLine ≤ n ∧ n ≤ p.endLine ∧
      ∃ line, src[n - 1]? = some line ∧ isSeparator line = false ∧
        (barePipes none line > cols + 1 ∨ barePipes none line < cols) := by
  simp only [← tableLineWarning_isSome cols p.startLine]
  rw [tableWarnings]
  split
  · constructor
    · rintro ⟨v, hv, _⟩; simp at hv
    · rintro ⟨h1, h2, h3, _⟩; omega
  · rename_i h0
    constructor
    · rintro ⟨v, hv, rfl⟩
      obtain ⟨l, hl, hv⟩ := List.mem_filterMap.mp hv
      rw [List.mem_range'] at hl
      obtain ⟨i, hi, rfl⟩ := hl
      cases hs : src[p.startLine + 1 * i - 1]? with
      | none => rw [hs] at hv; simp at hv
      | some line =>
        rw [hs] at hv
        simp only [Option.map_eq_some_iff] at hv
        obtain ⟨m, hm, rfl⟩ := hv
        exact ⟨by omega, by simp, by simp only; omega, line, hs, by rw [hm]; rfl⟩
    · rintro ⟨h1, h2, h3, line, hs, hw⟩
      obtain ⟨m, hm⟩ := Option.isSome_iff_exists.mp hw
      refine ⟨⟨n, m⟩, List.mem_filterMap.mpr ⟨n, ?_, ?_⟩, rfl⟩
      · rw [List.mem_range']; exact ⟨n - p.startLine, by omega, by omega⟩
      · rw [hs]; simp [hm]

theorem tableWarnings_sorted (src : List (List Char)) (p : Pos) (cols : Nat) :
    (tableWarnings src p cols).Pairwise (fun a b => a.line < b.line) := by
  rw [tableWarnings]
  split
  · exact List.Pairwise.nil
  · refine List.Pairwise.filterMap _ ?_ (List.pairwise_lt_range' (s := p.startLine) (step := 1) (by omega))
    intro a b hab x hx y hy
    have key : ∀ (l : Nat) (v : Warning), (match src[l - 1]? with
        | none => none
        | some line => (tableLineWarning cols p.startLine line).map fun m => (⟨l, m⟩ : Warning)) = some v →
        v.line = l := by
      intro l v h
      split at h
      · simp at h
      · simp only [Option.map_eq_some_iff] at h
        obtain ⟨m, _, rfl⟩ := h; rfl
    rw [key a x hx, key b y hy]; exact hab

theorem toList_cat (a b c d e f g h i : String) : (a ++ b ++ c ++ d ++ e ++ f ++ g ++ h ++ i).toList =
    a.toList ++ b.toList ++ c.toList ++ d.toList ++ e.toList ++ f.toList ++ g.toList ++ h.toList ++
      i.toList := by
  simp only [String.toList_append]

theorem natText_eq (n : Nat) : natText n = (toString n).toList := rfl

theorem close_eq : [')'] = ")".toList := by decide

theorem tooMany_text (n cols start : Nat) : tooManyPipes n cols start =
    ("table row has " ++ toString n ++ " pipe characters, expected " ++
          toString (cols + 1) ++ " for " ++ toString cols ++
          " columns; unescaped `|` in cell content? (table starts at line " ++ toString start ++ ")").toList := by
  unfold tooManyPipes
  rw [toList_cat, ← close_eq, natText_eq n, natText_eq (cols + 1), natText_eq cols, natText_eq start]

theorem tooFew_text (n cols start : Nat) : tooFewPipes n cols start =
    ("table row has " ++ toString n ++ " pipe characters, expected at least " ++
          toString cols ++ " for " ++ toString cols ++
          " columns (table starts at line " ++ toString start ++ ")").toList := by
  unfold tooFewPipes
  rw [toList_cat, ← close_eq, natText_eq n, natText_eq cols, natText_eq start]

/-- The whole message for a table line. -/
theorem tableLineWarning_text {cols start : Nat} {line m : List Char}
    (h : tableLineWarning cols start line = some m) :
    m = (if barePipes none line > cols + 1 then
        "table row has " ++ toString (barePipes none line) ++ " pipe characters, expected " ++
          toString (cols + 1) ++ " for " ++ toString cols ++
          " columns; unescaped `|` in cell content? (table starts at line " ++ toString start ++ ")"
      else
        "table row has " ++ toString (barePipes none line) ++
          " pipe characters, expected at least " ++ toString cols ++ " for " ++ toString cols ++
          " columns (table starts at line " ++ toString start ++ ")").toList := by
  rw [tableLineWarning, countPipes_eq] at h
  by_cases h1 : (line.all fun c => c = '|' || c = '-' || c = ':' || c = ' ') = true
  · rw [if_pos h1] at h; cases h
  · rw [if_neg h1] at h
    by_cases h2 : barePipes none line > cols + 1
    · rw [if_pos h2] at h
      rw [if_pos h2, ← tooMany_text]
      exact (Option.some.inj h).symm
    · rw [if_neg h2] at h
      rw [if_neg h2, ← tooFew_text]
      by_cases h3 : barePipes none line < cols
      · rw [if_pos h3] at h
        exact (Option.some.inj h).symm
      · rw [if_neg h3] at h; cases h

theorem tableWarnings_text {src : List (List Char)} {p : Pos} {cols : Nat} {v : Warning}
    (hv : v ∈ tableWarnings src p cols) {line : List Char} (hl : src[v.line - 1]? = some line) :
    tableLineWarning cols p.startLine line = some v.message := by
  rw [tableWarnings] at hv
  split at hv
  · simp at hv
  · obtain ⟨l, _, hv⟩ := List.mem_filterMap.mp hv
    split at hv
    · simp at hv
    · rename_i line' hs
      simp only [Option.map_eq_some_iff] at hv
      obtain ⟨m, hm, rfl⟩ := hv
      simp only at hl
      rw [hs] at hl
      simp only [Option.some.injEq] at hl
      subst hl
      exact hm

end Hongdown
