import Verif.Spec.Refs
import Verif.Spec.Words
import Verif.Model.Refs
import Verif.Lemmas.Table

set_option linter.unusedSimpArgs false

namespace Hongdown
open Model Spec

/-! ### Sorting by number -/

/-- Sorted by key. -/
def KeySorted {α : Type} (l : List (Nat × α)) : Prop := l.Pairwise fun x y => x.1 ≤ y.1

theorem insertByKey_perm {α : Type} (x : Nat × α) (l : List (Nat × α)) :
    (insertByKey x l).Perm (x :: l) := by
  induction l with
  | nil => exact .refl _
  | cons y ys ih =>
    rw [insertByKey]
    split
    · exact .refl _
    · exact (ih.cons y).trans (.swap x y ys)

theorem insertByKey_sorted {α : Type} (x : Nat × α) (l : List (Nat × α)) (h : KeySorted l) :
    KeySorted (insertByKey x l) := by
  induction l with
  | nil => simp [insertByKey, KeySorted]
  | cons y ys ih =>
    simp only [KeySorted, List.pairwise_cons] at h ih ⊢
    rw [insertByKey]
    split
    · rename_i hlt
      simp only [List.pairwise_cons, List.mem_cons, forall_eq_or_imp]
      exact ⟨⟨by omega, fun z hz => by have := h.1 z hz; omega⟩, h.1, h.2⟩
    · rename_i hlt
      simp only [List.pairwise_cons]
      refine ⟨fun z hz => ?_, ih h.2⟩
      rcases List.mem_cons.mp ((insertByKey_perm x ys).mem_iff.mp hz) with rfl | hz
      · omega
      · exact h.1 z hz

theorem insertByKey_filter {α : Type} (x : Nat × α) (l : List (Nat × α)) (h : KeySorted l)
    (k : Nat) : (insertByKey x l).filter (fun e => e.1 = k) =
      l.filter (fun e => e.1 = k) ++ [x].filter (fun e => e.1 = k) := by
  induction l with
  | nil => simp [insertByKey]
  | cons y ys ih =>
    simp only [KeySorted, List.pairwise_cons] at h ih
    rw [insertByKey]
    split
    · rename_i hlt
      by_cases hk : x.1 = k
      · have hn : (y :: ys).filter (fun e => e.1 = k) = [] := by
          rw [List.filter_eq_nil_iff]
          intro z hz
          rcases List.mem_cons.mp hz with rfl | hz
          · simp; omega
          · have := h.1 z hz; simp; omega
        rw [List.filter_cons_of_pos (by simpa using hk), hn]
        simp [hk]
      · rw [List.filter_cons_of_neg (by simpa using hk)]
        simp [hk]
    · rw [List.filter_cons, List.filter_cons, ih h.2]
      split <;> simp

theorem sortByKey_go {α : Type} (xs : List (Nat × α)) : ∀ acc, KeySorted acc →
    let r := xs.foldl (fun acc x => insertByKey x acc) acc
    KeySorted r ∧ r.Perm (acc ++ xs) ∧
      ∀ k, r.filter (fun e => e.1 = k) =
        acc.filter (fun e => e.1 = k) ++ xs.filter (fun e => e.1 = k) := by
  induction xs with
  | nil => intro acc h; simp [h]
  | cons x xs ih =>
    intro acc h
    have := ih (insertByKey x acc) (insertByKey_sorted x acc h)
    simp only [List.foldl_cons] at this ⊢
    refine ⟨this.1, this.2.1.trans ?_, fun k => ?_⟩
    · refine ((insertByKey_perm x acc).append_right xs).trans ?_
      exact (List.perm_middle (a := x) (l₁ := acc) (l₂ := xs)).symm
    · rw [this.2.2 k, insertByKey_filter x acc h k, List.append_assoc, ← List.filter_append]
      rfl

theorem sortByKey_spec {α : Type} (xs : List (Nat × α)) :
    KeySorted (sortByKey xs) ∧ (sortByKey xs).Perm xs ∧
      ∀ k, (sortByKey xs).filter (fun e => e.1 = k) = xs.filter (fun e => e.1 = k) := by
  have := sortByKey_go xs [] (by simp [KeySorted])
  simpa [sortByKey] using this

/-! ### The order of output -/

theorem keyed_map {α : Type} (num : α → Option Nat) (xs : List α) :
    (xs.filterMap fun x => (num x).map fun k => (k, x)).map (·.2) =
      xs.filter fun x => (num x).isSome := by
  induction xs with
  | nil => rfl
  | cons x xs ih =>
    rw [List.filterMap_cons, List.filter_cons]
    cases h : num x <;> simp [ih]

theorem keyed_mem {α : Type} (num : α → Option Nat) (xs : List α) :
    ∀ e ∈ xs.filterMap (fun x => (num x).map fun k => (k, x)), num e.2 = some e.1 := by
  intro e he
  simp only [List.mem_filterMap, Option.map_eq_some_iff] at he
  obtain ⟨a, _, k, hk, rfl⟩ := he
  exact hk

theorem keyed_filter {α : Type} (num : α → Option Nat) (k : Nat) (l : List (Nat × α))
    (h : ∀ e ∈ l, num e.2 = some e.1) :
    (l.map (·.2)).filter (fun x => num x = some k) =
      (l.filter fun e => e.1 = k).map (·.2) := by
  induction l with
  | nil => rfl
  | cons e l ih =>
    have he := h e (by simp)
    rw [List.map_cons, List.filter_cons, List.filter_cons,
      ih fun e' h' => h e' (by simp [h'])]
    simp only [he, Option.some.injEq]
    split <;> simp

theorem keyed_filter_some {α : Type} (num : α → Option Nat) (k : Nat) (xs : List α) :
    ((xs.filter fun x => (num x).isSome).filter fun x => num x = some k) =
      xs.filter fun x => num x = some k := by
  rw [List.filter_filter]
  congr 1
  funext x
  cases h : num x <;> simp

theorem outputOrder_isOutputOrder {α : Type} (num : α → Option Nat) (xs : List α) :
    IsOutputOrder num xs (outputOrder num xs) := by
  have hs := sortByKey_spec (xs.filterMap fun x => (num x).map fun k => (k, x))
  have hmem : ∀ e ∈ sortByKey (xs.filterMap fun x => (num x).map fun k => (k, x)),
      num e.2 = some e.1 := fun e he => keyed_mem num xs e (hs.2.1.mem_iff.mp he)
  refine ⟨?_, fun h => by rw [outputOrder, if_pos h], fun h => ?_⟩
  · rw [outputOrder]
    split
    · exact .refl _
    · refine (List.Perm.append_left _ (hs.2.1.map (·.2))).trans ?_
      rw [keyed_map]
      have : (fun x : α => (num x).isNone) = fun x => !(num x).isSome := by
        funext x; cases num x <;> rfl
      rw [this]
      refine List.perm_append_comm.trans ?_
      exact List.filter_append_perm _ xs
  · refine ⟨(sortByKey (xs.filterMap fun x => (num x).map fun k => (k, x))).map (·.2), ?_, ?_, ?_⟩
    · rw [outputOrder, if_neg (by omega)]
    · rw [List.pairwise_map]
      refine List.Pairwise.imp_of_mem ?_ hs.1
      intro a b ha hb hab
      exact ⟨a.1, b.1, hmem a ha, hmem b hb, hab⟩
    · intro k
      rw [keyed_filter num k _ hmem, hs.2.2 k, ← keyed_filter num k _ (keyed_mem num xs),
        keyed_map, keyed_filter_some]

/-! ### Numbers -/

theorem digitVal_ten (c : Char) : digitVal 10 c =
    if 48 ≤ c.toNat ∧ c.toNat ≤ 57 then some (c.toNat - 48) else none := by
  rw [digitVal]
  by_cases h : 48 ≤ c.toNat ∧ c.toNat ≤ 57
  · have h1 : c.toNat - 48 < 10 := by omega
    simp [h, h1, Option.filter]
  · rw [if_neg h]
    simp only [Bool.and_eq_true, decide_eq_true_eq]
    rw [if_neg h]
    split
    · simp [Option.filter]
    · split <;> simp [Option.filter]

theorem digitsVal_ten (s : List Char) : ∀ acc, digitsVal 10 acc s =
    if ∀ c ∈ s, 48 ≤ c.toNat ∧ c.toNat ≤ 57 then
      some (s.foldl (fun a c => 10 * a + (c.toNat - 48)) acc) else none := by
  induction s with
  | nil => intro acc; simp [digitsVal]
  | cons c cs ih =>
    intro acc
    rw [digitsVal, digitVal_ten]
    by_cases h : 48 ≤ c.toNat ∧ c.toNat ≤ 57
    · rw [if_pos h]
      simp only [ih, List.forall_mem_cons, h, true_and, and_self, List.foldl_cons,
        Nat.mul_comm acc 10]
    · rw [if_neg h, if_neg]
      intro hc; exact h (hc c (by simp))

theorem parseNat_ten (s : List Char) : parseNat 10 s = decimal s := by
  rw [parseNat, decimal, digitsVal_ten]
  by_cases h : s = [] <;> simp [h]

theorem strip_char (c : Char) (s : List Char) :
    (stripPrefix? [c] s).getD s = if s.head? = some c then s.tail else s := by
  cases s with
  | nil => simp [stripPrefix?]
  | cons d ds =>
    simp only [stripPrefix?, List.head?_cons, Option.some.injEq, List.tail_cons]
    by_cases h : c = d
    · simp [h]
    · rw [if_neg h, if_neg (fun h' => h h'.symm)]; rfl

theorem parseU64_eq (s : List Char) : parseU64 s = number64 s := by
  rw [parseU64, parseNat_ten, strip_char, number64]
  cases decimal (if s.head? = some '+' then s.tail else s) with
  | none => rfl
  | some n => simp [Option.filter]

theorem numericLabel_eq (s : List Char) : numericLabel s = labelNumber s := by
  rw [numericLabel, parseU64_eq, strip_char, labelNumber]

/-! ### Flushing -/

/-- The newlines `ensureBlankLine` adds. -/
def gapOf (out : List Char) : List Char :=
  if ['\n', '\n'].isSuffixOf out then []
  else if ['\n'].isSuffixOf out then ['\n']
  else ['\n', '\n']

theorem ensureBlankLine_eq (st : St) :
    ensureBlankLine st = { st with output := st.output ++ gapOf st.output } := by
  rw [ensureBlankLine, gapOf]
  split
  · simp
  · split <;> rfl

theorem gapOf_isGap (out : List Char) : IsGap out (gapOf out) := by
  have two : ['\n', '\n'].isSuffixOf out = true ↔ ['\n', '\n'] <:+ out := List.isSuffixOf_iff_suffix
  have one : ['\n'].isSuffixOf out = true ↔ ['\n'] <:+ out := List.isSuffixOf_iff_suffix
  rw [gapOf]
  split
  · rename_i h
    exact ⟨by simpa using two.mp h, fun _ _ _ => List.nil_prefix, by simp⟩
  · rename_i h2
    rw [two] at h2
    split
    · rename_i h1
      obtain ⟨p, rfl⟩ := one.mp h1
      refine ⟨⟨p, by simp⟩, fun g hg hn => ?_, by simp⟩
      cases g with
      | nil => rw [List.append_nil] at hg; exact absurd hg h2
      | cons c cs =>
        rw [hn c (by simp)]
        exact ⟨cs, rfl⟩
    · rename_i h1
      rw [one] at h1
      refine ⟨⟨out, rfl⟩, fun g hg hn => ?_, by simp⟩
      cases g with
      | nil => rw [List.append_nil] at hg; exact absurd hg h2
      | cons c cs =>
        cases cs with
        | nil =>
          obtain ⟨p, hp⟩ := hg
          have : p ++ ['\n'] ++ ['\n'] = out ++ [c] := by simpa using hp
          have := List.append_inj_left' this rfl
          exact absurd ⟨p, this⟩ h1
        | cons d ds =>
          rw [hn c (by simp), hn d (by simp)]
          exact ⟨ds, rfl⟩

theorem writeReferences_eq (rs : List Ref) : ∀ st : St, writeReferences st rs =
    { st with
      output := st.output ++ (rs.map referenceText).flatten
      emittedReferences := st.emittedReferences ++ rs.map (·.label) } := by
  induction rs with
  | nil => intro st; simp [writeReferences]
  | cons r rs ih =>
    intro st
    simp only [writeReferences, List.foldl_cons] at ih ⊢
    rw [ih]
    simp [St.push]

/-- The pending references still to be written. -/
def freshRefs (st : St) : List Ref :=
  (st.pendingReferences.map (·.2)).filter fun r => !st.emittedReferences.contains r.label

/-- What `flushReferences` writes. -/
def refsOut (st : St) : List Ref := outputOrder (fun r => numericLabel r.label) (freshRefs st)

theorem outputOrder_nil {α : Type} (num : α → Option Nat) : outputOrder num [] = [] := by
  simp [outputOrder]

/-- The text of a group of things after a blank line; nothing if there are none. -/
def groupText {α : Type} (out : List Char) (f : α → List Char) (xs : List α) : List Char :=
  if xs = [] then [] else gapOf out ++ (xs.map f).flatten

theorem order_eq_nil {α : Type} {num : α → Option Nat} {xs : List α} :
    outputOrder num xs = [] ↔ xs = [] := by
  constructor
  · intro h
    have := (outputOrder_isOutputOrder num xs).perm
    rw [h] at this
    exact this.symm.eq_nil
  · rintro rfl; exact outputOrder_nil num

theorem flushReferences_eq (st : St) : flushReferences st =
    { st with
      pendingReferences := []
      output := st.output ++ groupText st.output referenceText (refsOut st)
      emittedReferences := st.emittedReferences ++ (refsOut st).map (·.label) } := by
  rw [flushReferences]
  split
  · rename_i h
    have : refsOut st = [] := by rw [refsOut, freshRefs, h]; exact outputOrder_nil _
    rw [this]
    simp [groupText, ← h]
  · simp only []
    split
    · rename_i h
      have : refsOut st = [] := by
        rw [refsOut, freshRefs, h]; exact outputOrder_nil _
      rw [this]
      simp [groupText]
    · rename_i h
      have h' : refsOut st ≠ [] := by
        intro hc; exact h (order_eq_nil.mp hc)
      rw [ensureBlankLine_eq, writeReferences_eq]
      rw [groupText, if_neg h']
      simp [refsOut, freshRefs]

/-- The pending footnote references still to be written now. -/
def dueFnRefs (before : Option Nat) (st : St) : List Ref :=
  (((st.footnotes.pendingReferences.filter fun e => !st.emittedReferences.contains e.1).filter
    fun e => dueBefore before e.2.2).map (·.2.1))

def keptFnRefs (before : Option Nat) (st : St) : List (List Char × (Ref × Nat)) :=
  (st.footnotes.pendingReferences.filter fun e => !st.emittedReferences.contains e.1).filter
    fun e => !dueBefore before e.2.2

theorem flushFootnoteRefs_eq (before : Option Nat) (st : St) : flushFootnoteRefsBefore before st =
    { st with
      footnotes := { st.footnotes with pendingReferences := keptFnRefs before st }
      output := st.output ++ groupText st.output referenceText (dueFnRefs before st)
      emittedReferences := st.emittedReferences ++ (dueFnRefs before st).map (·.label) } := by
  rw [flushFootnoteRefsBefore]
  split
  · rename_i h
    have h1 : dueFnRefs before st = [] := by rw [dueFnRefs, h]; rfl
    have h2 : keptFnRefs before st = [] := by rw [keptFnRefs, h]; rfl
    rw [h1, h2]
    simp [groupText, ← h]
  · simp only []
    split
    · rename_i h
      have h1 : dueFnRefs before st = [] := h
      rw [h1]
      simp [groupText, keptFnRefs]
    · rename_i h
      have h' : dueFnRefs before st ≠ [] := h
      rw [ensureBlankLine_eq, writeReferences_eq]
      rw [groupText, if_neg h']
      simp [dueFnRefs, keptFnRefs]

/-- The pending footnotes to be written now, in order. -/
def dueFootnotes (before : Option Nat) (st : St) : List Footnote :=
  ((st.footnotes.pending.filter fun e => !st.footnotes.emitted.contains e.1).filter
    fun e => dueBefore before e.2.referenceLine).map (·.2)

def keptFootnotes (before : Option Nat) (st : St) : List (List Char × Footnote) :=
  (st.footnotes.pending.filter fun e => !st.footnotes.emitted.contains e.1).filter
    fun e => !dueBefore before e.2.referenceLine

def footnotesOut (before : Option Nat) (st : St) : List Footnote :=
  outputOrder (fun f => parseU64 f.name) (dueFootnotes before st)

theorem writeFootnotes_eq (cx : Cx) (fs : List Footnote) : ∀ st : St,
    fs.foldl (writeFootnote cx) st =
    { st with
      output := st.output ++ (fs.map (footnoteText cx)).flatten
      panicked := st.panicked || fs.any (footnoteUnderflow cx)
      footnotes := { st.footnotes with emitted := st.footnotes.emitted ++ fs.map (·.name) } } := by
  induction fs with
  | nil => intro st; simp
  | cons f fs ih =>
    intro st
    rw [List.foldl_cons, ih]
    simp [writeFootnote, St.push, Bool.or_assoc]

theorem flushFootnotes_eq (cx : Cx) (before : Option Nat) (st : St) :
    flushFootnotesBefore cx before st =
    { st with
      output := st.output ++ groupText st.output (footnoteText cx) (footnotesOut before st)
      panicked := st.panicked || (footnotesOut before st).any (footnoteUnderflow cx)
      footnotes := { st.footnotes with
        pending := keptFootnotes before st
        emitted := st.footnotes.emitted ++ (footnotesOut before st).map (·.name) } } := by
  rw [flushFootnotesBefore]
  split
  · rename_i h
    have h1 : footnotesOut before st = [] := by
      rw [footnotesOut, dueFootnotes, h]; exact outputOrder_nil _
    have h2 : keptFootnotes before st = [] := by rw [keptFootnotes, h]; rfl
    rw [h1, h2]
    simp [groupText, ← h]
  · simp only []
    split
    · rename_i h
      have h1 : footnotesOut before st = [] := by
        rw [footnotesOut, dueFootnotes, h]; exact outputOrder_nil _
      rw [h1]
      simp [groupText, keptFootnotes]
    · rename_i h
      have h' : footnotesOut before st ≠ [] := fun hc => h (order_eq_nil.mp hc)
      rw [ensureBlankLine_eq, writeFootnotes_eq]
      rw [groupText, if_neg h']
      simp [footnotesOut, dueFootnotes, keptFootnotes]

/-! ### Filling lines -/

theorem joinWith_snoc (sep : List Char) (l : List (List Char)) (x : List Char) (h : l ≠ []) :
    joinWith sep (l ++ [x]) = joinWith sep l ++ sep ++ x := by
  induction l with
  | nil => exact absurd rfl h
  | cons a l ih =>
    cases l with
    | nil => simp [joinWith]
    | cons b l =>
      rw [List.cons_append, joinWith_cons sep a (by simp), ih (by simp),
        joinWith_cons sep a (by simp)]
      simp

theorem joinWith_ne_nil {sep : List Char} {l : List (List Char)} (h : l ≠ []) (hn : [] ∉ l) :
    joinWith sep l ≠ [] := by
  cases l with
  | nil => exact absurd rfl h
  | cons a l =>
    have ha : a ≠ [] := fun h => hn (by simp [h])
    cases l with
    | nil => simpa [joinWith] using ha
    | cons b l => simp [joinWith, ha]

/-- `Filled` with widths instead of prefixes. -/
def FilledW (w : List Char → Nat) (first cont : Nat) : List (List (List Char)) → Prop
  | [] => True
  | [l] => l.length = 1 ∨ w (joinWith [' '] l) ≤ first
  | l :: l' :: rest =>
    (l.length = 1 ∨ w (joinWith [' '] l) ≤ first) ∧
      first < w (joinWith [' '] l) + 1 + w (l'.headD []) ∧ FilledW w cont cont (l' :: rest)

theorem fillWords_spec {w : List Char → Nat} (hw : WidthOk w) (first cont : Nat)
    (ws : List (List Char)) : ∀ (b : Bool) (cur : List (List Char)), cur ≠ [] → [] ∉ cur →
    [] ∉ ws → (cur.length = 1 ∨ w (joinWith [' '] cur) ≤ (if b then first else cont)) →
    ∃ l ls, fillWords w first cont b (joinWith [' '] cur) ws = (l :: ls).map (joinWith [' ']) ∧
      (l :: ls).flatten = cur ++ ws ∧ (∀ x ∈ l :: ls, x ≠ []) ∧ l.head? = cur.head? ∧
      FilledW w (if b then first else cont) cont (l :: ls) := by
  induction ws with
  | nil =>
    intro b cur hne hn _ hfit
    refine ⟨cur, [], ?_, by simp, by simpa using hne, rfl, by simpa [FilledW] using hfit⟩
    rw [fillWords, if_neg (joinWith_ne_nil hne hn)]
    rfl
  | cons x ws ih =>
    intro b cur hne hn hws hfit
    have hx : x ≠ [] := fun h => hws (by simp [h])
    have hws' : [] ∉ ws := fun h => hws (by simp [h])
    rw [fillWords, if_neg (joinWith_ne_nil hne hn)]
    by_cases hle : w (joinWith [' '] cur) + 1 + w x ≤ (if b then first else cont)
    · rw [if_pos hle]
      have e : joinWith [' '] cur ++ ' ' :: x = joinWith [' '] (cur ++ [x]) := by
        rw [joinWith_snoc _ _ _ hne]; simp
      rw [e]
      obtain ⟨l, ls, h1, h2, h3, h4, h5⟩ := ih b (cur ++ [x]) (by simp) (by simp [hn, Ne.symm hx]) hws'
        (by
          right
          rw [← e, hw.space]
          exact hle)
      refine ⟨l, ls, h1, by simpa using h2, h3, ?_, h5⟩
      rw [h4]
      cases cur with
      | nil => exact absurd rfl hne
      | cons a cur => rfl
    · rw [if_neg hle]
      obtain ⟨l, ls, h1, h2, h3, h4, h5⟩ := ih false [x] (by simp) (by simp [Ne.symm hx]) hws'
        (by simp)
      rw [show fillWords w first cont false x ws = _ from h1]
      refine ⟨cur, l :: ls, rfl, ?_, ?_, rfl, ?_⟩
      · rw [List.flatten_cons, h2]; simp
      · intro y hy
        rcases List.mem_cons.mp hy with rfl | hy
        · exact hne
        · exact h3 y hy
      · refine ⟨hfit, ?_, by simpa using h5⟩
        have : l.headD [] = x := by
          cases l with
          | nil => simp at h4
          | cons a l => simpa using h4
        rw [this]
        omega

theorem filled_of_filledW {w : List Char → Nat} (hw : WidthOk w) {lw : Nat} {fp pfx : List Char}
    (h1 : PfxOk fp) (h2 : PfxOk pfx) (hf : w fp ≤ lw) (hp : w pfx ≤ lw) :
    ∀ ls, FilledW w (lw - w fp) (lw - w pfx) ls → Filled w lw fp pfx ls := by
  intro ls
  induction ls generalizing fp with
  | nil => intro _; trivial
  | cons l ls ih =>
    intro h
    have e := hw.append h1 (joinWith [' '] l)
    cases ls with
    | nil =>
      simp only [FilledW, Filled] at h ⊢
      omega
    | cons l' rest =>
      simp only [FilledW, Filled] at h ⊢
      refine ⟨by omega, by omega, ih h2 hp h.2.2⟩

theorem width_spaces {w : List Char → Nat} (hw : WidthOk w) (n : Nat) : w (spaces n) = n := by
  induction n with
  | zero => exact hw.nil
  | succ n ih =>
    have : spaces (n + 1) = [] ++ ' ' :: spaces n := rfl
    rw [this, hw.space, hw.nil, ih]; omega

theorem wordsAux_soft (s : List Char) : ∀ acc, wordsAux acc s = wordsGo acc (softToSpace s) := by
  induction s with
  | nil => intro acc; rfl
  | cons c cs ih =>
    intro acc
    rw [softToSpace, List.map_cons, ← softToSpace, wordsAux, wordsGo]
    by_cases h : isWs c ∨ c = '\x00'
    · have h' : isWs (if c = '\x00' then ' ' else c) = true := by
        rcases h with h | h
        · split
          · decide
          · exact h
        · rw [if_pos h]; decide
      rw [if_pos h, if_pos h', ih]
      split <;> simp
    · rw [not_or] at h
      rw [if_neg (by simp [h]), if_neg h.2, if_neg (by simpa using h.1), ih]

theorem words_eq_splitWs (s : List Char) : words s = splitWs (softToSpace s) := wordsAux_soft s []

theorem layout_mapIdx (pfx indent : List Char) (ls : List (List Char)) :
    footnoteLines pfx indent ls = (layout pfx indent ls).flatMap (· ++ ['\n']) := by
  rw [footnoteLines, List.flatMap]
  congr 1
  cases ls with
  | nil => rfl
  | cons l ls =>
    simp [layout, List.mapIdx_cons, List.map_map]
    apply List.ext_getElem
    · simp
    · intro i h1 h2
      simp

theorem footnotePrefix_pfxOk (name : List Char) : PfxOk (footnotePrefix name) := by
  right; rw [footnotePrefix, List.getLast?_append]; simp

/-! ### Reading link targets back -/

theorem bareDest_cons {c : Char} (h : c ≠ '\\') (d : Nat) (cs : List Char) :
    bareDest d (c :: cs) =
      if endsDest c then if d = 0 then some ([], c :: cs) else none
      else if c = '(' then (bareDest (d + 1) cs).map fun r => (c :: r.1, r.2)
      else if c = ')' then
        if d = 0 then some ([], c :: cs) else (bareDest (d - 1) cs).map fun r => (c :: r.1, r.2)
      else (bareDest d cs).map fun r => (c :: r.1, r.2) := by
  cases d <;> rw [bareDest] <;> simp_all

/-- What may come after a destination. -/
def stopsDest (rest : List Char) : Prop := rest.head?.all (fun c => endsDest c || c = ')') = true

theorem bareDest_stop {rest : List Char} (h : stopsDest rest) : bareDest 0 rest = some ([], rest) := by
  cases rest with
  | nil => rfl
  | cons c cs =>
    simp only [stopsDest, List.head?_cons, Option.all_some, Bool.or_eq_true, decide_eq_true_eq] at h
    have hb : c ≠ '\\' := by
      rintro rfl
      rcases h with h | h
      · exact absurd h (by decide)
      · exact absurd h (by decide)
    rw [bareDest_cons hb]
    rcases h with h | h
    · simp [h]
    · subst h; rfl

theorem bareDest_plain {rest : List Char} (hr : stopsDest rest) (u : List Char) : ∀ d,
    (u.all fun c => !endsDest c && c ≠ '\\') = true → balanced d u = true →
    bareDest d (u ++ rest) = some (u, rest) := by
  induction u with
  | nil =>
    intro d _ hb
    have : d = 0 := by simpa [balanced] using hb
    subst this
    exact bareDest_stop hr
  | cons c u ih =>
    intro d ha hb
    simp only [List.all_cons, Bool.and_eq_true, Bool.not_eq_true', decide_eq_true_eq] at ha
    rw [List.cons_append, bareDest_cons ha.1.2, if_neg (by simp [ha.1.1])]
    rw [balanced] at hb
    have ha2 : (u.all fun c => !endsDest c && c ≠ '\\') = true := by
      simpa using ha.2
    split
    · rename_i h
      rw [if_pos h] at hb
      rw [ih _ ha2 hb]; rfl
    · rename_i h
      rw [if_neg h] at hb
      split
      · rename_i h'
        rw [if_pos h'] at hb
        simp only [Bool.and_eq_true, decide_eq_true_eq] at hb
        rw [if_neg hb.1, ih _ ha2 hb.2]; rfl
      · rename_i h'
        rw [if_neg h'] at hb
        rw [ih _ ha2 hb]; rfl

theorem quotedTitle_cons {c : Char} (h : c ≠ '\\') (cs : List Char) :
    quotedTitle (c :: cs) =
      if c = '"' then some ([], cs) else (quotedTitle cs).map fun r => (c :: r.1, r.2) := by
  rw [quotedTitle]; simp_all

theorem quotedTitle_plain (rest : List Char) (t : List Char) (h : plainTitle t = true) :
    quotedTitle (t ++ '"' :: rest) = some (t, rest) := by
  induction t with
  | nil => rw [List.nil_append, quotedTitle_cons (by decide), if_pos rfl]
  | cons c t ih =>
    simp only [plainTitle, List.all_cons, Bool.and_eq_true, decide_eq_true_eq] at h
    rw [List.cons_append, quotedTitle_cons h.1.1.2, if_neg h.1.1.1,
      ih (by simpa [plainTitle] using h.2)]
    rfl

theorem readDest_plain {u rest : List Char} (hu : plainUrl u = true) (hr : stopsDest rest) :
    readDest (u ++ rest) = some (u, rest) := by
  simp only [plainUrl, Bool.and_eq_true, decide_eq_true_eq, ne_eq] at hu
  obtain ⟨⟨⟨h1, h2⟩, h3⟩, h4⟩ := hu
  have hh : (u ++ rest).head? = u.head? := by
    cases u with
    | nil => exact absurd rfl h1
    | cons => rfl
  rw [readDest, hh, if_neg h2, bareDest_plain hr u 0 (by simpa using h3) h4]
  simp [h1]

theorem readTarget_plain {u t rest : List Char} (hu : plainUrl u = true) (ht : plainTitle t = true)
    (hr : rest = [] ∨ rest.head? = some ')') :
    readTarget (u ++ titlePart t ++ rest) = some ((u, t), rest) := by
  rw [readTarget, titlePart]
  by_cases hn : t = []
  · rw [if_pos hn]
    have hs : stopsDest ([] ++ rest) := by
      rcases hr with rfl | hr
      · rfl
      · simp [stopsDest, hr]
    have hne : ([] ++ rest).head? ≠ some ' ' := by
      rcases hr with rfl | hr
      · simp
      · simp [hr]
    rw [List.append_assoc, readDest_plain hu hs]
    simp [hn]
    intro h
    exact absurd (by simpa using h) hne
  · rw [if_neg hn]
    have hs : stopsDest ([' ', '"'] ++ t ++ ['"'] ++ rest) := by
      simp only [stopsDest, List.cons_append, List.head?_cons]; decide
    rw [List.append_assoc, readDest_plain hu hs]
    have e : [' ', '"'] ++ t ++ ['"'] ++ rest = ' ' :: '"' :: (t ++ '"' :: rest) := by simp
    rw [e]
    have e2 : (' ' :: '"' :: (t ++ '"' :: rest)).dropWhile (· = ' ') = '"' :: (t ++ '"' :: rest) := by
      simp [List.dropWhile_cons]
    simp only [e2, List.head?_cons, and_self, if_true, List.tail_cons, quotedTitle_plain rest t ht,
      Option.map_some]

theorem readLabel_cons {c : Char} (h : c ≠ '\\') (cs : List Char) :
    readLabel (c :: cs) =
      if c = ']' then some ([], cs)
      else if c = '[' then none
      else (readLabel cs).map fun r => (c :: r.1, r.2) := by
  rw [readLabel]; simp_all

theorem readLabel_plain (rest : List Char) (l : List Char)
    (h : (l.all fun c => c ≠ '[' && c ≠ ']' && c ≠ '\\' && c ≠ '\n' && c ≠ '\x00') = true) :
    readLabel (l ++ ']' :: rest) = some (l, rest) := by
  induction l with
  | nil => rw [List.nil_append, readLabel_cons (by decide), if_pos rfl]
  | cons c l ih =>
    simp only [List.all_cons, Bool.and_eq_true, decide_eq_true_eq] at h
    rw [List.cons_append, readLabel_cons h.1.1.1.2, if_neg h.1.1.1.1.2, if_neg h.1.1.1.1.1,
      ih (by simpa using h.2)]
    rfl

theorem softToSpace_id {l : List Char} (h : ∀ c ∈ l, c ≠ '\x00') : softToSpace l = l := by
  induction l with
  | nil => rfl
  | cons c l ih =>
    have hc := h c (by simp)
    rw [softToSpace, List.map_cons, ← softToSpace, ih fun c hc => h c (by simp [hc]), if_neg hc]

theorem plainUrl_head {u : List Char} (h : plainUrl u = true) : u.head? ≠ some ' ' := by
  simp only [plainUrl, Bool.and_eq_true] at h
  cases u with
  | nil => simp
  | cons c u =>
    have := h.1.2
    simp only [List.all_cons, Bool.and_eq_true] at this
    intro hc
    simp only [List.head?_cons, Option.some.injEq] at hc
    subst hc
    exact absurd this.1.1 (by decide)

theorem dropWhile_space {u : List Char} (h : u.head? ≠ some ' ') : u.dropWhile (· = ' ') = u := by
  cases u with
  | nil => rfl
  | cons c u =>
    rw [List.dropWhile_cons, if_neg]
    simpa using h

theorem plainUrl_ne {u : List Char} (h : plainUrl u = true) : u ≠ [] := by
  simp only [plainUrl, Bool.and_eq_true] at h
  simpa using h.1.1.1

theorem head_append {u : List Char} (h : u ≠ []) (v : List Char) : (u ++ v).head? = u.head? := by
  cases u with
  | nil => exact absurd rfl h
  | cons => rfl

theorem readDefinition_plain {r : Ref} (hl : plainLabel r.label = true) (hu : plainUrl r.url = true)
    (ht : plainTitle r.title = true) :
    ∃ line, referenceText r = line ++ ['\n'] ∧
      readDefinition line = some (r.label, r.url, r.title) := by
  refine ⟨['['] ++ softToSpace r.label ++ [']', ':', ' '] ++ r.url ++ titlePart r.title, rfl, ?_⟩
  simp only [plainLabel, Bool.and_eq_true] at hl
  have hs : softToSpace r.label = r.label := by
    apply softToSpace_id
    intro c hc
    have := List.all_eq_true.mp hl.2 c hc
    simp only [Bool.and_eq_true, decide_eq_true_eq] at this
    exact this.2
  rw [hs]
  have e : ['['] ++ r.label ++ [']', ':', ' '] ++ r.url ++ titlePart r.title =
      '[' :: (r.label ++ ']' :: ':' :: ' ' :: (r.url ++ titlePart r.title)) := by simp
  rw [e, readDefinition]
  simp only [readLabel_plain _ r.label (by simpa using hl.2)]
  have hn : r.label.all isWs = false := by simpa using hl.1
  have e2 : (' ' :: (r.url ++ titlePart r.title)).dropWhile (· = ' ') = r.url ++ titlePart r.title := by
    rw [List.dropWhile_cons, if_pos (by decide)]
    apply dropWhile_space
    rw [head_append (plainUrl_ne hu)]
    exact plainUrl_head hu
  have h3 := readTarget_plain (rest := []) hu ht (Or.inl rfl)
  rw [List.append_nil] at h3
  simp only [hn, e2, h3]
  rfl

theorem readInlineTarget_plain {u t : List Char} (rest : List Char) (hu : plainUrl u = true)
    (ht : plainTitle t = true) :
    readInlineTarget ('(' :: (u ++ titlePart t ++ ')' :: rest)) = some ((u, t), rest) := by
  rw [readInlineTarget]
  have hne := plainUrl_ne hu
  have e2 : (u ++ titlePart t ++ ')' :: rest).dropWhile (· = ' ') = u ++ titlePart t ++ ')' :: rest := by
    apply dropWhile_space
    rw [List.append_assoc, head_append hne]
    exact plainUrl_head hu
  have h3 := readTarget_plain (rest := ')' :: rest) hu ht (Or.inr rfl)
  have hp : (u ++ titlePart t ++ ')' :: rest).head? ≠ some ')' := by
    rw [List.append_assoc, head_append hne]
    simp only [plainUrl, Bool.and_eq_true] at hu
    cases u with
    | nil => exact absurd rfl hne
    | cons c u =>
      intro hc
      simp only [List.head?_cons, Option.some.injEq] at hc
      subst hc
      exact absurd hu.2 (by simp [balanced])
  simp only [e2]
  generalize hx : u ++ titlePart t ++ ')' :: rest = x at h3 hp
  split
  · simp at hp
  · rw [h3]
    simp [List.dropWhile_cons]

/-! ### Lines joined with line feeds -/

theorem lines_joinWith {l : List Char} {ls : List (List Char)} (h : AreLines (l :: ls))
    (hlast : (l :: ls).getLast? ≠ some []) : lines (joinWith ['\n'] (l :: ls)) = l :: ls := by
  induction ls generalizing l with
  | nil =>
    have hl := (h l (by simp)).1
    have hne : l ≠ [] := by simpa using hlast
    rw [joinWith, lines]
    have : ∀ s acc : List Char, '\n' ∉ s → s ++ acc ≠ [] →
        linesGo acc s = [acc.reverse ++ s] := by
      intro s
      induction s with
      | nil => intro acc _ h; rw [linesGo, if_neg (by simpa using h)]; simp
      | cons c cs ih =>
        intro acc hs _
        rw [linesGo, if_neg (by intro hc; exact hs (by simp [hc])), ih _ (by intro hc; exact hs (by simp [hc]))
          (by simp)]
        simp
    rw [this l [] hl (by simpa using hne)]
    simp
  | cons x ls ih =>
    have hl := h l (by simp)
    have e : ['\n'] ++ joinWith ['\n'] (x :: ls) = '\n' :: joinWith ['\n'] (x :: ls) := rfl
    rw [joinWith, lines, List.append_assoc, e, linesGo_append hl.1]
    have h2 := ih (l := x) (fun y hy => h y (by simp [hy])) (by simpa [List.getLast?_cons_cons] using hlast)
    rw [lines] at h2
    rw [h2]
    simp [stripCR, hl.2]

end Hongdown
