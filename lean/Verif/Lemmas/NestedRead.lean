import Verif.Lemmas.Nested
import Verif.Lemmas.CoreRead

/-!
# Nested lists are read back: the steps of the reader
-/

namespace Hongdown.Model
open Spec

/-! ### More steps do not harm -/

theorem readTree_mono : ∀ k : Nat,
    (∀ m L bs, readTree k m L = some bs → readTree (k + 1) m L = some bs) ∧
    (∀ s L r, readItems k s L = some r → readItems (k + 1) s L = some r)
  | 0 => by
    refine ⟨fun m L bs h => ?_, fun s L r h => ?_⟩
    · rw [readTree] at h; cases h
    · rw [readItems] at h; cases h
  | k + 1 => by
    obtain ⟨iht, ihi⟩ := readTree_mono k
    have map : ∀ m L (f : List TreeBlock → List TreeBlock) bs, (readTree k m L).map f = some bs →
        (readTree (k + 1) m L).map f = some bs := by
      intro m L f bs h
      obtain ⟨a, ha, e⟩ := map_some h
      rw [iht _ _ _ ha, Option.map_some, e]
    refine ⟨fun m L bs h => ?_, fun s L r h => ?_⟩
    · cases L with
      | nil =>
        cases m with
        | none g => rw [readTree] at h ⊢; exact h
        | paragraph g ls => rw [readTree] at h ⊢; exact h
        | code g f ls => rw [readTree] at h; cases h
      | cons l L =>
        cases m with
        | none g =>
          rw [readTree] at h ⊢
          cases hk : lineKind l with
          | blank => simp only [hk] at h ⊢; exact iht _ _ _ h
          | rule => simp only [hk] at h ⊢; exact map _ _ _ _ h
          | text => simp only [hk] at h ⊢; exact iht _ _ _ h
          | heading level t => simp only [hk] at h ⊢; exact map _ _ _ _ h
          | fence f => simp only [hk] at h ⊢; exact iht _ _ _ h
          | definition label target =>
            simp only [hk] at h ⊢
            split at h
            · rename_i hc; rw [if_pos hc]; exact map _ _ _ _ h
            · cases h
          | other =>
            simp only [hk] at h ⊢
            cases hs : itemStart l with
            | none =>
              simp only [hs] at h ⊢
              split at h
              · rename_i hc
                rw [if_pos hc]
                cases hq : readQuote (l :: L) with
                | none => simp only [hq] at h; cases h
                | some cs => simp only [hq] at h ⊢; exact map _ _ _ _ h
              · rename_i hc
                rw [if_neg hc]
                cases hq : readTable (l :: L) with
                | none => simp only [hq] at h; cases h
                | some t => simp only [hq] at h ⊢; exact map _ _ _ _ h
            | some s =>
              simp only [hs] at h ⊢
              cases hr : readItems k s (l :: L) with
              | none => simp only [hr] at h; cases h
              | some r =>
                simp only [hr, ihi _ _ _ hr] at h ⊢
                exact map _ _ _ _ h
        | paragraph g ls =>
          rw [readTree] at h ⊢
          cases hu : underline l with
          | some level => simp only [hu] at h ⊢; exact map _ _ _ _ h
          | none =>
            simp only [hu] at h ⊢
            cases hk : lineKind l with
            | blank => simp only [hk] at h ⊢; exact map _ _ _ _ h
            | rule =>
              simp only [hk] at h ⊢
              split at h
              · cases h
              · rename_i hc; rw [if_neg hc]; exact map _ _ _ _ h
            | text => simp only [hk] at h ⊢; exact iht _ _ _ h
            | heading level t => simp only [hk] at h ⊢; exact map _ _ _ _ h
            | fence f => simp only [hk] at h ⊢; exact map _ _ _ _ h
            | definition label target => simp only [hk] at h; cases h
            | other =>
              simp only [hk] at h ⊢
              split at h
              · rename_i hc; rw [if_pos hc]; exact map _ _ _ _ h
              · cases h
        | code g f ls =>
          rw [readTree] at h ⊢
          split at h
          · rename_i hc; rw [if_pos hc]; exact map _ _ _ _ h
          · rename_i hc; rw [if_neg hc]; exact iht _ _ _ h
    · cases L with
      | nil => rw [readItems] at h; cases h
      | cons l L =>
        rw [readItems] at h ⊢
        cases hs : itemStart l with
        | none => simp only [hs] at h; cases h
        | some t =>
          simp only [hs] at h ⊢
          cases hb : readTree k (.none false) (l.drop t.content :: (itemLines t.content L).1) with
          | none => simp only [hb] at h; cases h
          | some bs =>
            simp only [hb, iht _ _ _ hb] at h ⊢
            split at h
            · cases h
            rename_i hd
            rw [if_neg hd]
            cases ha : (itemLines t.content L).2 with
            | nil => simp only [ha] at h ⊢; exact h
            | cons m rest =>
              simp only [ha] at h ⊢
              split at h
              · rename_i hc
                rw [if_pos hc]
                obtain ⟨a, ha, e⟩ := map_some h
                rw [ihi _ _ _ ha, Option.map_some, e]
              · rename_i hc; rw [if_neg hc]; exact h

theorem readTree_le {k j : Nat} (h : k ≤ j) {m : TreeMode} {L : List (List Char)} {bs : List TreeBlock} (hk : readTree k m L = some bs) :
    readTree j m L = some bs := by
  obtain ⟨i, rfl⟩ := Nat.le.dest h
  clear h
  induction i with
  | zero => exact hk
  | succ i ih => exact (readTree_mono _).1 _ _ _ ih

theorem readItems_le {k j : Nat} (h : k ≤ j) {s : ItemStart} {L : List (List Char)} {r : ItemsRead} (hk : readItems k s L = some r) :
    readItems j s L = some r := by
  obtain ⟨i, rfl⟩ := Nat.le.dest h
  clear h
  induction i with
  | zero => exact hk
  | succ i ih => exact (readTree_mono _).2 _ _ _ ih

/-- The lines are read as the blocks, with enough steps. -/
def Reads (m : TreeMode) (L : List (List Char)) (bs : List TreeBlock) : Prop := ∃ k, readTree k m L = some bs

/-- The lines are read as the items, with enough steps. -/
def ReadsItems (s : ItemStart) (L : List (List Char)) (r : ItemsRead) : Prop := ∃ k, readItems k s L = some r

theorem reads_unique {m : TreeMode} {L : List (List Char)} {bs cs : List TreeBlock} (h : Reads m L bs) (h' : Reads m L cs) : bs = cs := by
  obtain ⟨k, hk⟩ := h
  obtain ⟨j, hj⟩ := h'
  have a := readTree_le (Nat.le_max_left k j) hk
  have b := readTree_le (Nat.le_max_right k j) hj
  rw [a] at b
  exact Option.some.inj b

/-! ### The steps -/

theorem reads_nil (g : Bool) : Reads (.none g) [] [] := ⟨1, rfl⟩

theorem reads_nil_eq {g : Bool} {bs : List TreeBlock} (h : Reads (.none g) [] bs) : bs = [] := reads_unique h (reads_nil g)

theorem reads_blank {g : Bool} {l : List Char} {L : List (List Char)} {bs : List TreeBlock} (hl : lineKind l = .blank)
    (h : Reads (.none true) L bs) : Reads (.none g) (l :: L) bs := by
  obtain ⟨k, hk⟩ := h
  exact ⟨k + 1, by rw [readTree]; simp only [hl]; exact hk⟩

theorem reads_blanks {g : Bool} (n : Nat) {L : List (List Char)} {bs : List TreeBlock} (h : Reads (.none (g || decide (0 < n))) L bs) :
    Reads (.none g) (List.replicate n [] ++ L) bs := by
  induction n generalizing g with
  | zero => simpa using h
  | succ n ih =>
    rw [List.replicate_succ, List.cons_append]
    refine reads_blank lineKind_blank (ih ?_)
    simpa using h

theorem reads_text {g : Bool} {ms : List (List Char)} (m0 : ms ≠ []) (hm : ∀ m ∈ ms, TextLine m) {L : List (List Char)} {bs : List TreeBlock}
    (h : Reads (.paragraph g ms) L bs) : Reads (.none g) (ms ++ L) bs := by
  have go : ∀ (xs acc : List (List Char)), (∀ x ∈ xs, TextLine x) → Reads (.paragraph g (acc ++ xs)) L bs → Reads (.paragraph g acc) (xs ++ L) bs := by
    intro xs
    induction xs with
    | nil => intro acc _ h; simpa using h
    | cons x xs ih =>
      intro acc hx h
      have := ih (acc ++ [x]) (fun y hy => hx y (by simp [hy])) (by simpa using h)
      obtain ⟨k, hk⟩ := this
      refine ⟨k + 1, ?_⟩
      rw [List.cons_append, readTree, underline_text (hx x (by simp))]
      simp only [lineKind_text (hx x (by simp))]
      exact hk
  cases ms with
  | nil => exact absurd rfl m0
  | cons m ms =>
    obtain ⟨k, hk⟩ := go ms [m] (fun y hy => hm y (by simp [hy])) h
    refine ⟨k + 1, ?_⟩
    rw [List.cons_append, readTree]
    simp only [lineKind_text (hm m (by simp))]
    exact hk

/-- A line that is the start of an item and nothing else. -/
structure ItemLine (s : ItemStart) (l : List Char) : Prop where
  start : itemStart l = some s
  kind : lineKind l = .other
  under : underline l = none

/-- The lines after a paragraph that end it. -/
def EndsParagraph (L : List (List Char)) : Prop :=
  L = [] ∨ ∃ l L', L = l :: L' ∧ (l = [] ∨ ∃ s, ItemLine s l ∧ mayInterrupt s = true)

theorem reads_end {g : Bool} {ms : List (List Char)} {L : List (List Char)} (hL : EndsParagraph L) {bs : List TreeBlock}
    (h : Reads (.none false) L bs) : Reads (.paragraph g ms) L (.leaf g (.paragraph ms) :: bs) := by
  rcases hL with rfl | ⟨l, L', rfl, hl⟩
  · rw [reads_nil_eq h]
    exact ⟨1, rfl⟩
  · obtain ⟨k, hk⟩ := h
    refine ⟨k + 1, ?_⟩
    rcases hl with rfl | ⟨s, hs, hi⟩
    · rw [readTree, underline_nil]
      simp only [lineKind_blank, hk]
      rfl
    · rw [readTree, hs.under]
      simp only [hs.kind, hk, hs.start]
      simp [hi]

theorem reads_fence {g : Bool} {f : Fence} {l : List Char} (hl : lineKind l = .fence f) {ls : List (List Char)}
    (hls : ∀ x ∈ ls, isClosing f.char f.length x = false) {cl : List Char} (hc : isClosing f.char f.length cl = true)
    {L : List (List Char)} {bs : List TreeBlock} (h : Reads (.none false) L bs) :
    Reads (.none g) (l :: ls ++ cl :: L) (.leaf g (.code f.info ls) :: bs) := by
  have go : ∀ (xs acc : List (List Char)), (∀ x ∈ xs, isClosing f.char f.length x = false) →
      Reads (.code g f acc) (xs ++ cl :: L) (.leaf g (.code f.info (acc ++ xs)) :: bs) := by
    intro xs
    induction xs with
    | nil =>
      intro acc _
      obtain ⟨k, hk⟩ := h
      refine ⟨k + 1, ?_⟩
      rw [List.nil_append, readTree, if_pos hc, hk, List.append_nil]
      rfl
    | cons x xs ih =>
      intro acc hx
      obtain ⟨k, hk⟩ := ih (acc ++ [x]) (fun y hy => hx y (by simp [hy]))
      refine ⟨k + 1, ?_⟩
      rw [List.cons_append, readTree, if_neg (by rw [hx x (by simp)]; simp), hk]
      simp
  obtain ⟨k, hk⟩ := go ls [] hls
  refine ⟨k + 1, ?_⟩
  rw [List.cons_append, readTree]
  simp only [hl]
  exact hk

/-- Is there a blank line between two blocks of an item? -/
def gaps (items : List (List TreeBlock)) : Bool := items.any fun it => it.any TreeBlock.gap

theorem reads_list {g : Bool} {s : ItemStart} {l : List Char} (hl : ItemLine s l) {L : List (List Char)} {r : ItemsRead}
    (hr : ReadsItems s (l :: L) r) {bs : List TreeBlock} (h : Reads (.none r.blank) r.rest bs) :
    Reads (.none g) (l :: L) (.list g s.number (!r.loose && !gaps r.items) r.items :: bs) := by
  obtain ⟨j, hj⟩ := hr
  obtain ⟨k, hk⟩ := h
  refine ⟨max j k + 1, ?_⟩
  rw [readTree]
  simp only [hl.kind, hl.start, readItems_le (Nat.le_max_left j k) hj, readTree_le (Nat.le_max_right j k) hk]
  rfl

/-- The last item of a list. -/
theorem readsItems_last {s t : ItemStart} {l : List Char} (hl : itemStart l = some t) {L body after : List (List Char)}
    (hb : itemLines t.content L = (body, after)) {bs : List TreeBlock} (h : Reads (.none false) (l.drop t.content :: body) bs)
    (hd : bs.any TreeBlock.isDefinition = false) (ha : after = [] ∨ ∃ m a, after = m :: a ∧ (itemStart m).any (sameList s) = false ∧
      (body.getLast?.any blankLine = true ∨ mayFollow m = true)) :
    ReadsItems s (l :: L) ⟨[bs], false, body.getLast?.any blankLine, after⟩ := by
  obtain ⟨k, hk⟩ := h
  refine ⟨k + 1, ?_⟩
  rw [readItems]
  simp only [hl, hb, hk]
  rw [if_neg (by rw [hd]; simp)]
  rcases ha with rfl | ⟨m, a, rfl, h1, h2⟩
  · rfl
  · simp only
    rw [if_neg (by rw [h1]; simp), if_pos (by rcases h2 with h | h <;> simp [h])]

/-- An item with others after it. -/
theorem readsItems_more {s t : ItemStart} {l : List Char} (hl : itemStart l = some t) {L body : List (List Char)} {m : List Char}
    {after : List (List Char)} (hb : itemLines t.content L = (body, m :: after)) {bs : List TreeBlock}
    (h : Reads (.none false) (l.drop t.content :: body) bs) (hd : bs.any TreeBlock.isDefinition = false)
    (hm : (itemStart m).any (sameList s) = true) {r : ItemsRead}
    (hr : ReadsItems s (m :: after) r) :
    ReadsItems s (l :: L) ⟨bs :: r.items, body.getLast?.any blankLine || r.loose, r.blank, r.rest⟩ := by
  obtain ⟨k, hk⟩ := h
  obtain ⟨j, hj⟩ := hr
  refine ⟨max j k + 1, ?_⟩
  rw [readItems]
  simp only [hl, hb, readTree_le (Nat.le_max_right j k) hk, readItems_le (Nat.le_max_left j k) hj]
  rw [if_neg (by rw [hd]; simp), if_pos hm]
  rfl

/-- The definition of a link. -/
theorem reads_definition {g : Bool} {l label : List Char} {target : List Char × List Char} (hl : lineKind l = .definition label target)
    {L : List (List Char)} (ha : afterDefinition L = true) {bs : List TreeBlock} (h : Reads (.none false) L bs) :
    Reads (.none g) (l :: L) (.leaf g (.definition label target) :: bs) := by
  obtain ⟨k, hk⟩ := h
  refine ⟨k + 1, ?_⟩
  rw [readTree]
  simp only [hl]
  rw [if_pos ha, hk]
  rfl

/-! ### Block quotes -/

/-- A line of a block quote. -/
def marked (t : List Char) : List Char := if t = [] then ['>'] else '>' :: ' ' :: t

theorem marked_head (t : List Char) : ∃ x, marked t = '>' :: x := by
  unfold marked
  split
  · exact ⟨[], rfl⟩
  · exact ⟨_, rfl⟩

theorem lineKind_quote (x : List Char) : lineKind ('>' :: x) = .other := by
  have h1 : isRule ('>' :: x) = false := not_rule_line (c := '>') (by simp) (by decide) (by decide)
  have h2 : ¬ TextLine ('>' :: x) := by
    intro h
    obtain ⟨w, r, e⟩ : ∃ w r, splitOn ' ' ('>' :: x) = ('>' :: w) :: r := by
      rw [splitOn, if_neg (by decide)]
      cases hs : splitOn ' ' x with
      | nil => exact absurd hs (splitOn_ne_nil _ _)
      | cons w r => exact ⟨w, r, rfl⟩
    have := (h ('>' :: w) (by rw [e]; simp)).2.2.1
    simp [startsBlock] at this
  have h3 : atxLine ('>' :: x) = none := by
    unfold atxLine
    simp
  have h4 : readOpening ('>' :: x) = none := by
    unfold readOpening
    simp
  have h5 : definitionLine ('>' :: x) = none := by
    unfold definitionLine readDefinition
    simp
  unfold lineKind
  rw [if_neg (by simp [blankChar]), if_neg (by simp [h1]), if_neg h2, h3, h4, h5]

theorem itemStart_quote (x : List Char) : itemStart ('>' :: x) = none := by
  unfold itemStart readItem
  simp

theorem quoteLine_marked {t : List Char} (h : blankLine t = true → '\t' ∉ t) : readQuoteLine (marked t) = some t := by
  unfold marked
  split
  · next e => subst e; decide
  · next e =>
    unfold readQuoteLine
    rw [if_neg]
    · rfl
    · rintro (hm | ⟨hb, hm⟩)
      · simp at hm
      · refine h (by simpa [blankLine, blankChar] using hb) ?_
        simpa using hm

theorem quoteLines_marked : ∀ (ts : List (List Char)), (∀ t ∈ ts, blankLine t = true → '\t' ∉ t) → ∀ {L : List (List Char)},
    (∀ l ∈ L.head?, l = []) → quoteLines (ts.map marked ++ L) = (ts, L)
  | [], _, [], _ => rfl
  | [], _, l :: L, h => by
    rw [h l rfl]
    rw [List.map_nil, List.nil_append, quoteLines]
    rfl
  | t :: ts, ht, L, h => by
    rw [List.map_cons, List.cons_append, quoteLines, quoteLine_marked (ht t (by simp))]
    simp only [quoteLines_marked ts (fun x hx => ht x (by simp [hx])) h]

theorem alertLine_marked {t : List Char} (h : ['[', '!'].isPrefixOf t = false) : alertLine (marked t) = none := by
  unfold marked
  split
  · rfl
  · unfold alertLine
    split
    · next r e =>
      injection e with _ e
      injection e with _ e
      subst e
      simp [List.isPrefixOf] at h
    · rfl

theorem readQuote_plain {t : List Char} {r : List (List Char)} (ht : ∀ x ∈ t :: r, blankLine x = true → '\t' ∉ x) {bs : List CoreBlock}
    (hr : readLines .none (t :: r) = some bs) (hh : ['[', '!'].isPrefixOf t = false) (ha : alertLike bs = false) {L : List (List Char)}
    (hL : ∀ l ∈ L.head?, l = []) : readQuote ((t :: r).map marked ++ L) = some (none, bs) := by
  have hq := quoteLines_marked (t :: r) ht hL
  unfold readQuote
  rw [hq, List.map_cons, List.cons_append, List.headD_cons, alertLine_marked hh]
  simp only [hr, ha, Bool.false_eq_true, if_false]
  rw [if_neg]
  cases L with
  | nil => simp
  | cons l L => rw [hL l rfl]; simp [mayFollow, lineKind, itemStart, readItem]

theorem readQuote_alert {a : AlertHead} {ts : List (List Char)} (ht : ∀ x ∈ ts, blankLine x = true → '\t' ∉ x) {bs : List CoreBlock}
    (hr : readLines .none ts = some bs) (hb : ts.head?.any blankLine = false) {L : List (List Char)}
    (hL : ∀ l ∈ L.head?, l = []) : readQuote ((alertLines (some a) ++ ts).map marked ++ L) = some (some a, bs) := by
  obtain ⟨kind, blank⟩ := a
  have hq := quoteLines_marked (alertLines (some ⟨kind, blank⟩) ++ ts) (by
    intro x hx
    rcases List.mem_append.1 hx with hx | hx
    · simp only [alertLines, List.mem_cons] at hx
      rcases hx with rfl | hx
      · cases kind <;> decide
      · cases blank <;> simp at hx
        subst hx; simp
    · exact ht x hx) hL
  unfold readQuote
  rw [hq]
  have h1 : alertLine (((alertLines (some ⟨kind, blank⟩) ++ ts).map marked ++ L).headD []) = some kind := by
    simp only [alertLines, List.cons_append, List.map_cons, List.headD_cons]
    cases kind <;> decide +kernel
  have h2 : readLines .none (alertLines (some ⟨kind, blank⟩) ++ ts).tail = some bs := by
    simp only [alertLines, List.cons_append, List.tail_cons]
    cases blank with
    | true => simpa [readLines_blank] using hr
    | false => simpa using hr
  have h3 : (alertLines (some ⟨kind, blank⟩) ++ ts).tail.head?.any blankLine = blank := by
    simp only [alertLines, List.cons_append, List.tail_cons]
    cases blank with
    | true => rfl
    | false => simpa using hb
  simp only [h1, h2, h3]
  rw [if_neg]
  cases L with
  | nil => simp
  | cons l L => rw [hL l rfl]; simp [mayFollow, lineKind, itemStart, readItem]

theorem reads_quote {g : Bool} {a : Option AlertHead} {ts : List (List Char)} (t0 : ts ≠ []) (ht : ∀ t ∈ ts, blankLine t = true → '\t' ∉ t)
    {bs : List CoreBlock} {L : List (List Char)} (hread : readQuote (ts.map marked ++ L) = some (a, bs)) (hL : ∀ l ∈ L.head?, l = [])
    {cs : List TreeBlock} (h : Reads (.none false) L cs) : Reads (.none g) (ts.map marked ++ L) (.quote g a bs :: cs) := by
  have hq := quoteLines_marked ts ht hL
  obtain ⟨t, r, rfl⟩ := List.exists_cons_of_ne_nil t0
  obtain ⟨k, hk⟩ := h
  refine ⟨k + 1, ?_⟩
  obtain ⟨x, hx⟩ := marked_head t
  have hsome : (readQuoteLine (marked t)).isSome = true := by rw [quoteLine_marked (ht t (by simp))]; rfl
  rw [List.map_cons, List.cons_append] at hq hread ⊢
  rw [readTree]
  have e1 : lineKind (marked t) = .other := by rw [hx]; exact lineKind_quote x
  have e2 : itemStart (marked t) = none := by rw [hx]; exact itemStart_quote x
  simp only [e1, e2, hsome, if_true, hread, hq, hk]
  rfl

/-! ### Tables -/

theorem lineKind_row (x : List Char) : lineKind ('|' :: x) = .other := by
  have h1 : isRule ('|' :: x) = false := not_rule_line (c := '|') (by simp) (by decide) (by decide)
  have h2 : ¬ TextLine ('|' :: x) := by
    intro h
    obtain ⟨w, r, e⟩ : ∃ w r, splitOn ' ' ('|' :: x) = ('|' :: w) :: r := by
      rw [splitOn, if_neg (by decide)]
      cases hs : splitOn ' ' x with
      | nil => exact absurd hs (splitOn_ne_nil _ _)
      | cons w r => exact ⟨w, r, rfl⟩
    have := (h ('|' :: w) (by rw [e]; simp)).2.2.1
    simp [startsBlock] at this
  have h3 : atxLine ('|' :: x) = none := by
    unfold atxLine
    simp
  have h4 : readOpening ('|' :: x) = none := by
    unfold readOpening
    simp
  have h5 : definitionLine ('|' :: x) = none := by
    unfold definitionLine readDefinition
    simp
  unfold lineKind
  rw [if_neg (by simp [blankChar]), if_neg (by simp [h1]), if_neg h2, h3, h4, h5]

theorem itemStart_row (x : List Char) : itemStart ('|' :: x) = none := by
  unfold itemStart readItem
  simp

theorem quoteLine_row (x : List Char) : readQuoteLine ('|' :: x) = none := by
  unfold readQuoteLine
  split
  · rfl
  · rw [unquote]
    all_goals simp

theorem blankLine_row (x : List Char) : blankLine ('|' :: x) = false := by simp [blankLine, blankChar]

theorem takeWhile_rows : ∀ {ts L : List (List Char)}, (∀ t ∈ ts, blankLine t = false) → (∀ l ∈ L.head?, blankLine l = true) →
    (ts ++ L).takeWhile (fun l => !blankLine l) = ts ∧ (ts ++ L).dropWhile (fun l => !blankLine l) = L
  | [], [], _, _ => ⟨rfl, rfl⟩
  | [], l :: L, _, h => by simp [h l rfl]
  | t :: ts, L, ht, h => by
    have ih := takeWhile_rows (ts := ts) (fun x hx => ht x (by simp [hx])) h
    simp [ht t (by simp), ih]

theorem reads_table {g : Bool} {ts : List (List Char)} (ht : ∀ t ∈ ts, ∃ x, t = '|' :: x) {aligns : List Align}
    {rows : List (List (List Char))} (hr : readTable ts = some (aligns, rows)) {L : List (List Char)} (hL : ∀ l ∈ L.head?, l = [])
    {cs : List TreeBlock} (h : Reads (.none false) L cs) : Reads (.none g) (ts ++ L) (.table g aligns rows :: cs) := by
  have hb : ∀ t ∈ ts, blankLine t = false := by
    intro t hm
    obtain ⟨x, rfl⟩ := ht t hm
    exact blankLine_row x
  have hw := takeWhile_rows hb (L := L) (fun l hl => by rw [hL l hl]; rfl)
  have hw0 := takeWhile_rows hb (L := []) (by simp)
  rw [List.append_nil] at hw0
  have hrt : readTable (ts ++ L) = some (aligns, rows) := by
    rw [← hr, readTable, readTable, hw.1, hw0.1]
  cases ts with
  | nil => simp [readTable] at hr
  | cons t r =>
    obtain ⟨x, rfl⟩ := ht _ (List.mem_cons_self)
    obtain ⟨k, hk⟩ := h
    refine ⟨k + 1, ?_⟩
    rw [List.cons_append] at hw hrt ⊢
    rw [readTree]
    simp only [lineKind_row, itemStart_row, quoteLine_row, Option.isSome_none, Bool.false_eq_true, if_false, hrt, hw.2, hk]
    rfl

end Hongdown.Model
