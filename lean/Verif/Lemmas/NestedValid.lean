import Verif.Lemmas.NestedRead

/-!
# What the reader of nested lists gives
-/

namespace Hongdown.Model
open Spec

/-- A line of the source, or the rest of one. -/
structure LineOk (src l : List Char) : Prop where
  newline : '\n' ∉ l
  cr : '\r' ∉ l
  nul : '\x00' ∉ l
  tabs : blankLine l = true → '\t' ∉ l
  inside : l <:+: src

theorem blankLine_drop {n : Nat} {l : List Char} (h : blankLine l = true ∨ n ≤ (l.takeWhile (· = ' ')).length)
    (hd : blankLine (l.drop n) = true) : blankLine l = true := by
  rcases h with h | h
  · exact h
  · unfold blankLine at hd ⊢
    rw [List.all_eq_true] at hd ⊢
    intro c hc
    rw [← List.take_append_drop n l, List.mem_append] at hc
    rcases hc with hc | hc
    · have hp : l.take n <+: l.takeWhile (· = ' ') := by
        have h1 : l.takeWhile (· = ' ') = l.take (l.takeWhile (· = ' ')).length :=
          List.prefix_iff_eq_take.1 (List.takeWhile_prefix _)
        rw [h1]
        exact List.take_prefix_take_left h
      have := List.all_takeWhile (p := fun c => decide (c = ' ')) (l := l)
      rw [List.all_eq_true] at this
      have := this c (hp.subset hc)
      unfold blankChar
      simp_all
    · exact hd c hc

theorem lineOk_drop {src l : List Char} (h : LineOk src l) (n : Nat) (ht : blankLine (l.drop n) = true → '\t' ∉ l.drop n) :
    LineOk src (l.drop n) :=
  ⟨fun e => h.newline (List.mem_of_mem_drop e), fun e => h.cr (List.mem_of_mem_drop e), fun e => h.nul (List.mem_of_mem_drop e), ht,
    (List.drop_suffix n l).isInfix.trans h.inside⟩

/-- A leaf that was read, whatever its content. -/
def LeafRead (src : List Char) (b : CoreBlock) : Prop :=
  LinesValid b ∧ match b with
    | .heading _ ls => ∀ l ∈ ls, l <:+: src
    | .paragraph ls => ∀ l ∈ ls, l <:+: src
    | .code _ ls => ∀ l ∈ ls, blankLine l = true → '\t' ∉ l
    | _ => True

/-- A leaf that was read. -/
def LeafOk (src : List Char) (b : CoreBlock) : Prop := CoreValid b ∧ LeafRead src b

def TreeModeOk (src : List Char) : TreeMode → Prop
  | .none _ => True
  | .paragraph _ ls => ls ≠ [] ∧ ∀ l ∈ ls, TextLine l ∧ l <:+: src
  | .code _ f ls => InfoPlain f.info ∧ ∀ l ∈ ls, LineOk src l

mutual

/-- A list is tight if and only if there are no blank lines between its items and between the blocks
of its items. A block quote that is no alert does not look like one. The rows of a table have as many cells as there are columns. -/
def Well : TreeBlock → Prop
  | .leaf _ _ => True
  | .quote _ a bs => (∀ b ∈ bs, b.isDefinition = false) ∧ (a = none → alertLike bs = false)
  | .table _ aligns rows => aligns ≠ [] ∧ rows ≠ [] ∧ ∀ r ∈ rows, r.length = aligns.length ∧ ∀ c ∈ r, CellOk c
  | .list _ _ t items => items ≠ [] ∧ (t = true → gaps items = false) ∧ (t = false → 2 ≤ items.length ∨ gaps items = true) ∧ WellItems items

def WellItems : List (List TreeBlock) → Prop
  | [] => True
  | it :: its => it.head?.any TreeBlock.gap = false ∧ it.any TreeBlock.isDefinition = false ∧ WellBlocks it ∧ WellItems its

def WellBlocks : List TreeBlock → Prop
  | [] => True
  | b :: bs => Well b ∧ WellBlocks bs

end

theorem itemStart_content {l : List Char} {s : ItemStart} (h : itemStart l = some s) : blankLine (l.drop s.content) = false := by
  unfold itemStart at h
  split at h
  · cases h
  · split at h
    · cases h
    · next hc =>
      cases h
      simp only [not_or] at hc
      simpa using hc.2.2

theorem itemLines_ok {src : List Char} (w : Nat) : ∀ L : List (List Char), (∀ l ∈ L, LineOk src l) →
    (∀ l ∈ (itemLines w L).1, LineOk src l) ∧ ∀ l ∈ (itemLines w L).2, LineOk src l
  | [], _ => by simp [itemLines]
  | l :: L, h => by
    have ih := itemLines_ok w L (fun x hx => h x (by simp [hx]))
    rw [itemLines]
    split
    · next hc =>
      refine ⟨?_, ih.2⟩
      intro x hx
      rcases List.mem_cons.1 hx with rfl | hx
      · exact lineOk_drop (h l (by simp)) w fun hb e => (h l (by simp)).tabs (blankLine_drop hc hb) (List.mem_of_mem_drop e)
      · exact ih.1 x hx
    · exact ⟨by simp, h⟩

theorem lineKind_blank_iff {l : List Char} (h : lineKind l = .blank) : blankLine l = true := by
  unfold lineKind at h
  split at h
  · assumption
  · split at h
    · cases h
    · split at h
      · cases h
      · split at h
        · split at h <;> cases h
        · split at h
          · split at h <;> cases h
          · split at h <;> cases h

/-- The first block has the gap of the mode. -/
def modeGap : TreeMode → Bool
  | .none g => g
  | .paragraph g _ => g
  | .code g _ _ => g

def isNone : TreeMode → Bool
  | .none _ => true
  | _ => false

theorem readTree_gap : ∀ (k : Nat) (m : TreeMode) (L : List (List Char)) (bs : List TreeBlock),
    (isNone m = true → ∀ l ∈ L.head?, blankLine l = false) → readTree k m L = some bs → ∀ b ∈ bs.head?, b.gap = modeGap m
  | 0, m, L, bs, _, h => by rw [readTree] at h; cases h
  | k + 1, m, [], bs, _, h => by
    cases m with
    | none g => rw [readTree] at h; cases h; simp
    | paragraph g ls => rw [readTree] at h; cases h; simp [TreeBlock.gap, modeGap]
    | code g f ls => rw [readTree] at h; cases h
  | k + 1, m, l :: L, bs, hn, h => by
    have ih := fun m bs h => readTree_gap k m L bs h
    have first : ∀ {x : Option (List TreeBlock)} {b : TreeBlock}, x.map (b :: ·) = some bs → b.gap = modeGap m → ∀ c ∈ bs.head?, c.gap = modeGap m := by
      intro x b h hb c hc
      obtain ⟨a, _, rfl⟩ := map_some h
      simp at hc
      rw [← hc, hb]
    cases m with
    | none g =>
      have hb := hn rfl l rfl
      rw [readTree] at h
      cases hk : lineKind l with
      | blank => rw [lineKind_blank_iff hk] at hb; cases hb
      | rule => simp only [hk] at h; exact first h rfl
      | text => simp only [hk] at h; exact ih (.paragraph g [l]) bs (by simp [isNone]) h
      | heading level t => simp only [hk] at h; exact first h rfl
      | fence f => simp only [hk] at h; exact ih (.code g f []) bs (by simp [isNone]) h
      | definition label target =>
        simp only [hk] at h
        split at h
        · exact first h rfl
        · cases h
      | other =>
        simp only [hk] at h
        split at h
        · split at h
          · split at h
            · cases h
            · exact first h rfl
          · split at h
            · cases h
            · exact first h rfl
        · split at h
          · cases h
          · exact first h rfl
    | paragraph g ls =>
      rw [readTree] at h
      cases hu : underline l with
      | some level => simp only [hu] at h; exact first h rfl
      | none =>
        simp only [hu] at h
        split at h
        · exact ih (.paragraph g (ls ++ [l])) bs (by simp [isNone]) h
        · split at h
          · cases h
          · exact first h rfl
        · split at h
          · exact first h rfl
          · cases h
        · cases h
        · exact first h rfl
    | code g f ls =>
      rw [readTree] at h
      split at h
      · exact first h rfl
      · exact ih (.code g f (ls ++ [l])) bs (by simp [isNone]) h

/-- A mode of the reader of blocks that are no lists. -/
def ReadModeOk (src : List Char) : ReadMode → Prop
  | .none => True
  | .paragraph ls => ls ≠ [] ∧ ∀ l ∈ ls, TextLine l ∧ l <:+: src
  | .code f ls => InfoPlain f.info ∧ ∀ l ∈ ls, LineOk src l

theorem readLines_ok (src : List Char) : ∀ (L : List (List Char)) (m : ReadMode) (bs : List CoreBlock), (∀ l ∈ L, LineOk src l) →
    ReadModeOk src m → readLines m L = some bs → (∀ b ∈ bs, LeafRead src b) ∧ ∀ b ∈ bs, b.isDefinition = false
  | [], m, bs, _, hm, h => by
    cases m with
    | none => rw [readLines] at h; cases h; simp
    | paragraph ls =>
      rw [readLines] at h; cases h
      refine ⟨?_, by simp [CoreBlock.isDefinition]⟩
      intro b hb
      rw [List.mem_singleton.1 hb]
      exact ⟨⟨hm.1, fun l hl => (hm.2 l hl).1⟩, fun l hl => (hm.2 l hl).2⟩
    | code f ls => rw [readLines] at h; cases h
  | l :: L, m, bs, hL, hm, h => by
    have hl := hL l (by simp)
    have hr : ∀ x ∈ L, LineOk src x := fun x hx => hL x (by simp [hx])
    have ih := fun {m bs} (hm : ReadModeOk src m) (h : readLines m L = some bs) => readLines_ok src L m bs hr hm h
    have add : ∀ {m} {as bs : List CoreBlock}, (readLines m L).map (as ++ ·) = some bs → ReadModeOk src m →
        (∀ a ∈ as, LeafRead src a ∧ a.isDefinition = false) → (∀ b ∈ bs, LeafRead src b) ∧ ∀ b ∈ bs, b.isDefinition = false := by
      intro m as bs h hm ha
      obtain ⟨x, hx, rfl⟩ := map_some h
      obtain ⟨h1, h2⟩ := ih hm hx
      refine ⟨fun b hb => ?_, fun b hb => ?_⟩
      · rcases List.mem_append.1 hb with hb | hb
        · exact (ha b hb).1
        · exact h1 b hb
      · rcases List.mem_append.1 hb with hb | hb
        · exact (ha b hb).2
        · exact h2 b hb
    have hfence : ∀ f, lineKind l = .fence f → ReadModeOk src (.code f []) := by
      intro f hf
      obtain ⟨h1, h2, h3⟩ := lineKind_isFence hf
      refine ⟨fun c hc => ⟨?_, ?_, ?_, ?_, ?_⟩, by simp⟩
      · rintro rfl; exact hl.newline (readOpening_info h1 _ hc)
      · rintro rfl; exact hl.cr (readOpening_info h1 _ hc)
      · rintro rfl; exact hl.nul (readOpening_info h1 _ hc)
      · rintro rfl; exact h2 hc
      · rintro rfl; exact h3 hc
    have hhead : ∀ level t, lineKind l = .heading level t → LeafRead src (.heading level [t]) := by
      intro level t ht
      obtain ⟨h1, h2⟩ := lineKind_heading ht
      refine ⟨⟨atxLine_level h1, by simp, by simpa using h2⟩, ?_⟩
      intro x hx
      rw [List.mem_singleton.1 hx]
      exact (atxLine_infix h1).trans hl.inside
    cases m with
    | none =>
      rw [readLines] at h
      cases hk : lineKind l with
      | blank => simp only [hk] at h; exact ih (m := .none) trivial h
      | rule => simp only [hk] at h; exact add (m := .none) (as := [.rule]) h trivial (by simp [LeafRead, LinesValid, CoreBlock.isDefinition])
      | text => simp only [hk] at h; exact ih (m := .paragraph [l]) ⟨by simp, by simpa using ⟨lineKind_textLine hk, hl.inside⟩⟩ h
      | heading level t =>
        simp only [hk] at h
        exact add (m := .none) (as := [.heading level [t]]) h trivial (by simpa [CoreBlock.isDefinition] using hhead _ _ hk)
      | fence f => simp only [hk] at h; exact ih (m := .code f []) (hfence f hk) h
      | definition label target => simp only [hk] at h; cases h
      | other => simp only [hk] at h; cases h
    | paragraph ls =>
      have hp : LeafRead src (.paragraph ls) := ⟨⟨hm.1, fun l hl => (hm.2 l hl).1⟩, fun l hl => (hm.2 l hl).2⟩
      rw [readLines] at h
      cases hu : underline l with
      | some level =>
        simp only [hu] at h
        have hh : LeafRead src (.heading level ls) := by
          refine ⟨⟨?_, hp.1⟩, hp.2⟩
          unfold underline at hu
          split at hu
          · cases hu; decide
          · split at hu
            · cases hu; decide
            · cases hu
        exact add (m := .none) (as := [.heading level ls]) h trivial (by simpa [CoreBlock.isDefinition] using hh)
      | none =>
        simp only [hu] at h
        cases hk : lineKind l with
        | blank => simp only [hk] at h; exact add (m := .none) (as := [.paragraph ls]) h trivial (by simpa [CoreBlock.isDefinition] using hp)
        | rule =>
          simp only [hk] at h
          split at h
          · cases h
          · refine add (m := .none) (as := [.paragraph ls, .rule]) h trivial ?_
            intro a ha
            simp only [List.mem_cons, List.not_mem_nil, or_false] at ha
            rcases ha with rfl | rfl
            · exact ⟨hp, rfl⟩
            · exact ⟨⟨trivial, trivial⟩, rfl⟩
        | text =>
          simp only [hk] at h
          refine ih (m := .paragraph (ls ++ [l])) ⟨by simp, fun x hx => ?_⟩ h
          rcases List.mem_append.1 hx with hx | hx
          · exact hm.2 x hx
          · rw [List.mem_singleton.1 hx]; exact ⟨lineKind_textLine hk, hl.inside⟩
        | heading level t =>
          simp only [hk] at h
          refine add (m := .none) (as := [.paragraph ls, .heading level [t]]) h trivial ?_
          intro a ha
          simp only [List.mem_cons, List.not_mem_nil, or_false] at ha
          rcases ha with rfl | rfl
          · exact ⟨hp, rfl⟩
          · exact ⟨hhead _ _ hk, rfl⟩
        | fence f =>
          simp only [hk] at h
          exact add (m := .code f []) (as := [.paragraph ls]) h (hfence f hk) (by simpa [CoreBlock.isDefinition] using hp)
        | definition label target => simp only [hk] at h; cases h
        | other => simp only [hk] at h; cases h
    | code f ls =>
      rw [readLines] at h
      split at h
      · refine add (m := .none) (as := [.code f.info ls]) h trivial ?_
        intro a ha
        rw [List.mem_singleton.1 ha]
        exact ⟨⟨coreValid_code hm.1 (fun x hx => ⟨(hm.2 x hx).newline, (hm.2 x hx).cr, (hm.2 x hx).nul⟩), fun x hx => (hm.2 x hx).tabs⟩, rfl⟩
      · refine ih (m := .code f (ls ++ [l])) ⟨hm.1, fun x hx => ?_⟩ h
        rcases List.mem_append.1 hx with hx | hx
        · exact hm.2 x hx
        · rw [List.mem_singleton.1 hx]; exact hl

theorem readQuoteLine_drop {l t : List Char} (h : readQuoteLine l = some t) :
    (t = l.drop 1 ∨ t = l.drop 2) ∧ (blankLine t = true → '\t' ∉ t) := by
  unfold readQuoteLine at h
  split at h
  · cases h
  · next hc =>
    simp only [not_or, not_and] at hc
    unfold unquote at h
    split at h
    · next x =>
      cases h
      refine ⟨.inr rfl, fun hb hm => hc.2 ?_ (by simp [hm])⟩
      simpa [blankLine, blankChar] using hb
    · next x _ =>
      cases h
      refine ⟨.inl rfl, fun hb hm => hc.2 ?_ (by simp [hm])⟩
      simpa [blankLine] using hb
    · cases h

theorem quoteLines_ok {src : List Char} : ∀ L : List (List Char), (∀ l ∈ L, LineOk src l) →
    (∀ l ∈ (quoteLines L).1, LineOk src l) ∧ ∀ l ∈ (quoteLines L).2, LineOk src l
  | [], _ => by simp [quoteLines]
  | l :: L, h => by
    have ih := quoteLines_ok L (fun x hx => h x (by simp [hx]))
    rw [quoteLines]
    split
    · next t ht =>
      refine ⟨?_, ih.2⟩
      intro x hx
      rcases List.mem_cons.1 hx with rfl | hx
      · obtain ⟨h1, h2⟩ := readQuoteLine_drop ht
        rcases h1 with e | e
        · rw [e] at h2 ⊢; exact lineOk_drop (h l (by simp)) 1 h2
        · rw [e] at h2 ⊢; exact lineOk_drop (h l (by simp)) 2 h2
      · exact ih.1 x hx
    · exact ⟨by simp, h⟩

/-! ### Tables -/

theorem strip_infix (s : List Char) : strip s <:+: s := by
  unfold strip
  have h1 : s.dropWhile isBlankChar <:+ s := List.dropWhile_suffix _
  have h2 : ((s.dropWhile isBlankChar).reverse.dropWhile isBlankChar).reverse <+: s.dropWhile isBlankChar := by
    have := List.dropWhile_suffix isBlankChar (l := (s.dropWhile isBlankChar).reverse)
    simpa using List.reverse_prefix.2 this
  exact h2.isInfix.trans h1.isInfix

theorem splitPipesGo_infix : ∀ (s acc : List Char), ∀ x ∈ splitPipesGo acc s, x <:+: acc.reverse ++ s
  | [], acc, x, h => by
    rw [splitPipesGo, List.mem_singleton] at h
    rw [h]; exact ⟨[], [], by simp⟩
  | c :: s, acc, x, h => by
    rw [splitPipesGo] at h
    split at h
    · rcases List.mem_cons.1 h with rfl | h
      · exact ⟨[], c :: s, by simp⟩
      · have := splitPipesGo_infix s [] x h
        exact this.trans ⟨acc.reverse ++ [c], [], by simp⟩
    · have := splitPipesGo_infix s (c :: acc) x h
      simpa using this

theorem readRow_infix {l : List Char} {cs : List (List Char)} (h : readRow l = some cs) : ∀ c ∈ cs, c <:+: l := by
  unfold readRow at h
  split at h
  · cases h
  · next first rest e =>
    split at h
    · cases h
      intro c hc
      obtain ⟨x, hx, rfl⟩ := List.mem_map.1 hc
      have := splitPipesGo_infix l [] x (by
        show x ∈ splitPipes l
        rw [e]; exact List.mem_cons_of_mem _ ((List.dropLast_sublist _).subset hx))
      exact (strip_infix x).trans (by simpa using this)
    · cases h

theorem mapM_mem {α β : Type} {f : α → Option β} : ∀ {l : List α} {r : List β}, l.mapM f = some r → ∀ y ∈ r, ∃ x ∈ l, f x = some y
  | [], r, h, y, hy => by
    simp at h
    rw [h] at hy; cases hy
  | a :: l, r, h, y, hy => by
    rw [List.mapM_cons] at h
    cases ha : f a with
    | none => simp [ha] at h
    | some b =>
      cases hl : l.mapM f with
      | none => simp [ha, hl] at h
      | some r' =>
        simp [ha, hl] at h
        subst h
        rcases List.mem_cons.1 hy with rfl | hy
        · exact ⟨a, by simp, ha⟩
        · obtain ⟨x, hx, e⟩ := mapM_mem hl y hy
          exact ⟨x, by simp [hx], e⟩

theorem readTable_ok {src : List Char} {L : List (List Char)} (hL : ∀ l ∈ L, LineOk src l) {aligns : List Align} {rows : List (List (List Char))}
    (h : readTable L = some (aligns, rows)) :
    (aligns ≠ [] ∧ rows ≠ [] ∧ ∀ r ∈ rows, r.length = aligns.length ∧ ∀ c ∈ r, CellOk c) ∧ ∀ b ∈ cellBlocks rows, LeafRead src b := by
  unfold readTable at h
  split at h
  · next header delims data hm =>
    split at h
    · next as ha =>
      split at h
      · next hc =>
        cases h
        refine ⟨⟨hc.1, by simp, hc.2⟩, ?_⟩
        intro b hb
        rw [cellBlocks] at hb
        obtain ⟨c, hcm, rfl⟩ := List.mem_map.1 hb
        obtain ⟨hcm, hne⟩ := List.mem_filter.1 hcm
        obtain ⟨r, hr, hcr⟩ := List.mem_flatten.1 hcm
        have hne : c ≠ [] := by simpa using hne
        have hok := ((hc.2 r hr).2 c hcr).resolve_left hne
        obtain ⟨l, hl, e⟩ := mapM_mem hm r (by
          rcases List.mem_cons.1 hr with rfl | hr
          · simp
          · simp [hr])
        have hin : c <:+: src := by
          unfold tableRow at e
          split at e
          · exact (readRow_infix e c hcr).trans (hL l ((List.takeWhile_sublist _).subset hl)).inside
          · cases e
        exact ⟨⟨by simp, by simpa using hok.1⟩, by simpa using hin⟩
      · cases h
    · cases h
  · cases h

theorem read_ok (src : List Char) : ∀ k : Nat,
    (∀ m L bs, (∀ l ∈ L, LineOk src l) → TreeModeOk src m → readTree k m L = some bs → (∀ b ∈ blocksLeaves bs, LeafRead src b) ∧ WellBlocks bs) ∧
    (∀ s L r, (∀ l ∈ L, LineOk src l) → readItems k s L = some r →
      (∀ b ∈ itemsLeaves r.items, LeafRead src b) ∧ WellItems r.items ∧ r.items ≠ [] ∧ (r.loose = true → 2 ≤ r.items.length) ∧
        ∀ l ∈ r.rest, LineOk src l)
  | 0 => by
    refine ⟨fun m L bs _ _ h => ?_, fun s L r _ h => ?_⟩
    · rw [readTree] at h; cases h
    · rw [readItems] at h; cases h
  | k + 1 => by
    obtain ⟨iht, ihi⟩ := read_ok src k
    have iht' : ∀ {m L bs}, readTree k m L = some bs → (∀ l ∈ L, LineOk src l) → TreeModeOk src m →
        (∀ b ∈ blocksLeaves bs, LeafRead src b) ∧ WellBlocks bs := fun h hL hm => iht _ _ _ hL hm h
    have add : ∀ {m L} {b : TreeBlock} {bs}, (readTree k m L).map (b :: ·) = some bs → (∀ l ∈ L, LineOk src l) → TreeModeOk src m →
        (∀ c ∈ leaves b, LeafRead src c) → Well b → (∀ b ∈ blocksLeaves bs, LeafRead src b) ∧ WellBlocks bs := by
      intro m L b bs h hL hm hb hw
      obtain ⟨a, ha, rfl⟩ := map_some h
      obtain ⟨h1, h2⟩ := iht _ _ _ hL hm ha
      refine ⟨fun c hc => ?_, ⟨hw, h2⟩⟩
      rw [blocksLeaves] at hc
      rcases List.mem_append.1 hc with hc | hc
      · exact hb c hc
      · exact h1 c hc
    have leaf : ∀ {b : CoreBlock} {g : Bool}, LeafRead src b → (∀ c ∈ leaves (.leaf g b), LeafRead src c) ∧ Well (.leaf g b) := by
      intro b g hb
      refine ⟨fun c hc => ?_, by rw [Well]; trivial⟩
      rw [leaves, List.mem_singleton] at hc
      rw [hc]; exact hb
    refine ⟨fun m L bs hL hm h => ?_, fun s L r hL h => ?_⟩
    · cases L with
      | nil =>
        cases m with
        | none g => rw [readTree] at h; cases h; exact ⟨by simp [blocksLeaves], by rw [WellBlocks]; trivial⟩
        | paragraph g ls =>
          rw [readTree] at h; cases h
          have := leaf (b := .paragraph ls) (g := g) ⟨⟨hm.1, fun l hl => (hm.2 l hl).1⟩, fun l hl => (hm.2 l hl).2⟩
          exact ⟨by simpa [blocksLeaves] using this.1, by simp [WellBlocks, this.2]⟩
        | code g f ls => rw [readTree] at h; cases h
      | cons l L =>
        have hl := hL l (by simp)
        have hr : ∀ x ∈ L, LineOk src x := fun x hx => hL x (by simp [hx])
        have hfence : ∀ g f, lineKind l = .fence f → TreeModeOk src (.code g f []) := by
          intro g f hf
          obtain ⟨h1, h2, h3⟩ := lineKind_isFence hf
          refine ⟨fun c hc => ⟨?_, ?_, ?_, ?_, ?_⟩, by simp⟩
          · rintro rfl; exact hl.newline (readOpening_info h1 _ hc)
          · rintro rfl; exact hl.cr (readOpening_info h1 _ hc)
          · rintro rfl; exact hl.nul (readOpening_info h1 _ hc)
          · rintro rfl; exact h2 hc
          · rintro rfl; exact h3 hc
        have hhead : ∀ level t, lineKind l = .heading level t → LeafRead src (.heading level [t]) := by
          intro level t ht
          obtain ⟨h1, h2⟩ := lineKind_heading ht
          refine ⟨⟨atxLine_level h1, by simp, by simpa using h2⟩, ?_⟩
          intro x hx
          rw [List.mem_singleton.1 hx]
          exact (atxLine_infix h1).trans hl.inside
        have htext : lineKind l = .text → TextLine l ∧ l <:+: src := fun hk => ⟨lineKind_textLine hk, hl.inside⟩
        cases m with
        | none g =>
          rw [readTree] at h
          cases hk : lineKind l with
          | blank => simp only [hk] at h; exact iht' h hr trivial
          | rule => simp only [hk] at h; exact add h hr trivial (leaf (b := .rule) ⟨trivial, trivial⟩).1 (leaf (b := .rule) ⟨trivial, trivial⟩).2
          | text => simp only [hk] at h; exact iht' h hr ⟨by simp, by simpa using htext hk⟩
          | heading level t => simp only [hk] at h; exact add h hr trivial (leaf (hhead _ _ hk)).1 (leaf (hhead _ _ hk)).2
          | fence f => simp only [hk] at h; exact iht' h hr (hfence g f hk)
          | definition label target =>
            simp only [hk] at h
            split at h
            · have hd : LeafRead src (.definition label target) := ⟨definitionLine_ok (lineKind_isDefinition hk), trivial⟩
              exact add h hr trivial (leaf hd).1 (leaf hd).2
            · cases h
          | other =>
            simp only [hk] at h
            split at h
            · split at h
              · split at h
                · cases h
                · next a cs hq =>
                  obtain ⟨h1, h2⟩ := quoteLines_ok (l :: L) hL
                  unfold readQuote at hq
                  split at hq
                  · cases hq
                  · split at hq
                    · split at hq
                      · cases hq
                      · next ds hd =>
                        split at hq
                        · cases hq
                        · next hc =>
                          cases hq
                          obtain ⟨h3, h4⟩ := readLines_ok src _ .none _ h1 trivial hd
                          refine add h h2 trivial (by rw [leaves]; exact h3) ?_
                          rw [Well]
                          exact ⟨h4, fun _ => by simpa using hc⟩
                    · split at hq
                      · cases hq
                      · next ds hd =>
                        cases hq
                        obtain ⟨h3, h4⟩ := readLines_ok src _ .none _ (fun x hx => h1 x (List.mem_of_mem_tail hx)) trivial hd
                        refine add h h2 trivial (by rw [leaves]; exact h3) ?_
                        rw [Well]
                        exact ⟨h4, by simp⟩
              · split at h
                · cases h
                · next aligns rows hq =>
                  obtain ⟨h1, h3⟩ := readTable_ok hL hq
                  refine add h (fun x hx => hL x ((List.dropWhile_suffix _).subset hx)) trivial (by rw [leaves]; exact h3) ?_
                  rw [Well]
                  exact h1
            · next s hs =>
              split at h
              · cases h
              · next r hri =>
                obtain ⟨h1, h2, h3, h4, h5⟩ := ihi _ _ _ hL hri
                refine add h h5 trivial (by rw [leaves]; exact h1) ?_
                rw [Well]
                refine ⟨h3, ?_, ?_, h2⟩
                · intro ht
                  rw [Bool.and_eq_true] at ht
                  simpa [gaps] using ht.2
                · intro ht
                  rw [Bool.and_eq_false_iff] at ht
                  rcases ht with ht | ht
                  · exact .inl (h4 (by simpa using ht))
                  · exact .inr (by simpa [gaps] using ht)
        | paragraph g ls =>
          have hp : LeafRead src (.paragraph ls) := ⟨⟨hm.1, fun l hl => (hm.2 l hl).1⟩, fun l hl => (hm.2 l hl).2⟩
          rw [readTree] at h
          cases hu : underline l with
          | some level =>
            simp only [hu] at h
            have hh : LeafRead src (.heading level ls) := by
              refine ⟨⟨?_, hp.1⟩, hp.2⟩
              unfold underline at hu
              split at hu
              · cases hu; decide
              · split at hu
                · cases hu; decide
                · cases hu
            exact add h hr trivial (leaf hh).1 (leaf hh).2
          | none =>
            simp only [hu] at h
            split at h
            · next hk =>
              refine iht' h hr ⟨by simp, fun x hx => ?_⟩
              rcases List.mem_append.1 hx with hx | hx
              · exact hm.2 x hx
              · rw [List.mem_singleton.1 hx]; exact htext hk
            · split at h
              · cases h
              · exact add h hL trivial (leaf hp).1 (leaf hp).2
            · split at h
              · exact add h hL trivial (leaf hp).1 (leaf hp).2
              · cases h
            · cases h
            · exact add h hL trivial (leaf hp).1 (leaf hp).2
        | code g f ls =>
          rw [readTree] at h
          split at h
          · have hc : LeafRead src (.code f.info ls) :=
              ⟨coreValid_code hm.1 (fun x hx => ⟨(hm.2 x hx).newline, (hm.2 x hx).cr, (hm.2 x hx).nul⟩), fun x hx => (hm.2 x hx).tabs⟩
            exact add h hr trivial (leaf hc).1 (leaf hc).2
          · refine iht' h hr ⟨hm.1, fun x hx => ?_⟩
            rcases List.mem_append.1 hx with hx | hx
            · exact hm.2 x hx
            · rw [List.mem_singleton.1 hx]; exact hl
    · cases L with
      | nil => rw [readItems] at h; cases h
      | cons l L =>
        have hl := hL l (by simp)
        have hr : ∀ x ∈ L, LineOk src x := fun x hx => hL x (by simp [hx])
        rw [readItems] at h
        cases hs : itemStart l with
        | none => simp only [hs] at h; cases h
        | some t =>
          simp only [hs] at h
          obtain ⟨hb1, hb2⟩ := itemLines_ok t.content L hr
          have hc := itemStart_content hs
          have hbody : ∀ x ∈ l.drop t.content :: (itemLines t.content L).1, LineOk src x := by
            intro x hx
            rcases List.mem_cons.1 hx with rfl | hx
            · exact lineOk_drop hl _ fun hb => by rw [hc] at hb; cases hb
            · exact hb1 x hx
          split at h
          · cases h
          · next bs hbs =>
            obtain ⟨h1, h2⟩ := iht' hbs hbody trivial
            split at h
            · cases h
            rename_i hd
            rw [Bool.not_eq_true] at hd
            have hg : bs.head?.any TreeBlock.gap = false := by
              have := readTree_gap _ _ _ _ (by intro _ x hx; simp at hx; rw [← hx]; exact hc) hbs
              cases hh : bs.head? with
              | none => rfl
              | some b => rw [hh] at this; simpa [modeGap] using this b rfl
            have one : (∀ b ∈ itemsLeaves [bs], LeafRead src b) ∧ WellItems [bs] := by
              refine ⟨by simpa [itemsLeaves] using h1, ?_⟩
              rw [WellItems, WellItems]
              exact ⟨hg, hd, h2, trivial⟩
            cases ha : (itemLines t.content L).2 with
            | nil =>
              simp only [ha] at h
              cases h
              exact ⟨one.1, one.2, by simp, by simp, by simp⟩
            | cons m rest =>
              simp only [ha] at h
              rw [ha] at hb2
              split at h
              · obtain ⟨a, ha', rfl⟩ := map_some h
                obtain ⟨i1, i2, i3, i4, i5⟩ := ihi _ _ _ hb2 ha'
                refine ⟨?_, ?_, by simp, ?_, i5⟩
                · intro b hb
                  rw [itemsLeaves] at hb
                  rcases List.mem_append.1 hb with hb | hb
                  · exact h1 b hb
                  · exact i1 b hb
                · rw [WellItems]; exact ⟨hg, hd, h2, i2⟩
                · intro _
                  have := List.length_pos_iff.2 i3
                  simp
                  omega
              · split at h
                · cases h
                  exact ⟨one.1, one.2, by simp, by simp, hb2⟩
                · cases h

theorem readsAs_ok {src : List Char} {d : List TreeBlock} (h : ReadsAs src d) :
    (∀ b ∈ blocksLeaves d, LeafOk src b) ∧ WellBlocks d := by
  obtain ⟨hcr, hnul, _, htabs, hcont, k, hk⟩ := h
  suffices hh : (∀ b ∈ blocksLeaves d, LeafRead src b) ∧ WellBlocks d from
    ⟨fun b hb => ⟨coreValid_of (hh.1 b hb).1 (hcont b hb), hh.1 b hb⟩, hh.2⟩
  refine (read_ok src k).1 (.none false) _ _ ?_ trivial hk
  intro l hl
  refine ⟨splitOn_not_mem _ _ l hl, fun e => hcr (mem_splitOn_subset hl e), fun e => hnul (mem_splitOn_subset hl e), htabs l hl, ?_⟩
  obtain ⟨a, c, e⟩ := List.append_of_mem hl
  have hsrc := join_splitOn '\n' src
  rw [e] at hsrc
  have := joinWith_infix ['\n'] [l] a c
  rw [← hsrc]
  simpa [joinWith] using this

theorem readsAs_unique {src : List Char} {d d' : List TreeBlock} (h : ReadsAs src d) (h' : ReadsAs src d') : d = d' :=
  reads_unique h.2.2.2.2.2 h'.2.2.2.2.2

/-! ### What stands in an alert does not stand on the first line -/

mutual

/-- The blocks of an alert are read from the text. -/
def Later (text : List Char) : TreeBlock → Prop
  | .leaf _ _ => True
  | .quote _ a bs => a.isSome = true → ∀ b ∈ bs, LeafRead text b
  | .table _ _ _ => True
  | .list _ _ _ items => LaterItems text items

def LaterItems (text : List Char) : List (List TreeBlock) → Prop
  | [] => True
  | it :: its => LaterBlocks text it ∧ LaterItems text its

def LaterBlocks (text : List Char) : List TreeBlock → Prop
  | [] => True
  | b :: bs => Later text b ∧ LaterBlocks text bs

end

theorem quoteLines_suffix : ∀ L : List (List Char), (quoteLines L).2 <:+ L
  | [] => by simp [quoteLines]
  | l :: L => by
    rw [quoteLines]
    split
    · exact (quoteLines_suffix L).trans (List.suffix_cons _ _)
    · exact List.suffix_refl _

theorem itemLines_suffix (w : Nat) : ∀ L : List (List Char), (itemLines w L).2 <:+ L
  | [] => by simp [itemLines]
  | l :: L => by
    rw [itemLines]
    split
    · exact (itemLines_suffix w L).trans (List.suffix_cons _ _)
    · exact List.suffix_refl _

theorem tail_of_suffix {α : Type} {M : List α} : ∀ {L : List α}, M <:+ L → ∀ x ∈ M.tail, x ∈ L.tail
  | [], h, x, hx => by
    rw [List.suffix_nil.1 h] at hx; exact hx
  | l :: L, h, x, hx => by
    rcases List.suffix_cons_iff.1 h with rfl | h
    · exact hx
    · exact h.subset (List.mem_of_mem_tail hx)

theorem read_later (text : List Char) : ∀ k : Nat,
    (∀ m L bs, (∀ l ∈ L.tail, LineOk text l) → readTree k m L = some bs → LaterBlocks text bs) ∧
    (∀ s L r, (∀ l ∈ L.tail, LineOk text l) → readItems k s L = some r →
      LaterItems text r.items ∧ ∀ l ∈ r.rest.tail, LineOk text l)
  | 0 => by
    refine ⟨fun m L bs _ h => ?_, fun s L r _ h => ?_⟩
    · rw [readTree] at h; cases h
    · rw [readItems] at h; cases h
  | k + 1 => by
    obtain ⟨iht, ihi⟩ := read_later text k
    have add : ∀ {m L} {b : TreeBlock} {bs}, (readTree k m L).map (b :: ·) = some bs → (∀ l ∈ L.tail, LineOk text l) →
        Later text b → LaterBlocks text bs := by
      intro m L b bs h hL hb
      obtain ⟨a, ha, rfl⟩ := map_some h
      rw [LaterBlocks]
      exact ⟨hb, iht _ _ _ hL ha⟩
    have leaf : ∀ (b : CoreBlock) (g : Bool), Later text (.leaf g b) := fun b g => by rw [Later]; trivial
    refine ⟨fun m L bs hL h => ?_, fun s L r hL h => ?_⟩
    · cases L with
      | nil =>
        cases m with
        | none g => rw [readTree] at h; cases h; rw [LaterBlocks]; trivial
        | paragraph g ls => rw [readTree] at h; cases h; rw [LaterBlocks, LaterBlocks]; exact ⟨leaf _ _, trivial⟩
        | code g f ls => rw [readTree] at h; cases h
      | cons l L =>
        have hr : ∀ x ∈ L.tail, LineOk text x := fun x hx => hL x (List.mem_of_mem_tail hx)
        cases m with
        | none g =>
          rw [readTree] at h
          cases hk : lineKind l with
          | blank => simp only [hk] at h; exact iht _ _ _ hr h
          | rule => simp only [hk] at h; exact add h hr (leaf _ _)
          | text => simp only [hk] at h; exact iht _ _ _ hr h
          | heading level t => simp only [hk] at h; exact add h hr (leaf _ _)
          | fence f => simp only [hk] at h; exact iht _ _ _ hr h
          | definition label target =>
            simp only [hk] at h
            split at h
            · exact add h hr (leaf _ _)
            · cases h
          | other =>
            simp only [hk] at h
            split at h
            · split at h
              · next hq0 =>
                split at h
                · cases h
                · next a cs hq =>
                  refine add h (fun x hx => hL x (tail_of_suffix (quoteLines_suffix _) x hx)) ?_
                  rw [Later]
                  intro ha
                  have h1 := (quoteLines_ok L (fun x hx => hL x hx)).1
                  have hq1 : (quoteLines (l :: L)).1.tail = (quoteLines L).1 := by
                    rw [quoteLines]
                    split
                    · rfl
                    · next hn => rw [hn] at hq0; cases hq0
                  unfold readQuote at hq
                  split at hq
                  · cases hq
                  · split at hq
                    · split at hq
                      · cases hq
                      · split at hq
                        · cases hq
                        · cases hq; cases ha
                    · split at hq
                      · cases hq
                      · next ds hd =>
                        cases hq
                        rw [hq1] at hd
                        exact (readLines_ok text _ .none _ h1 trivial hd).1
              · split at h
                · cases h
                · exact add h (fun x hx => hL x (tail_of_suffix (List.dropWhile_suffix _) x hx)) (by rw [Later]; trivial)
            · next s hs =>
              split at h
              · cases h
              · next r hri =>
                obtain ⟨h1, h2⟩ := ihi _ _ _ hL hri
                exact add h h2 (by rw [Later]; exact h1)
        | paragraph g ls =>
          rw [readTree] at h
          cases hu : underline l with
          | some level => simp only [hu] at h; exact add h hr (leaf _ _)
          | none =>
            simp only [hu] at h
            split at h
            · exact iht _ _ _ hr h
            · split at h
              · cases h
              · exact add h hL (leaf _ _)
            · split at h
              · exact add h hL (leaf _ _)
              · cases h
            · cases h
            · exact add h hL (leaf _ _)
        | code g f ls =>
          rw [readTree] at h
          split at h
          · exact add h hr (leaf _ _)
          · exact iht _ _ _ hr h
    · cases L with
      | nil => rw [readItems] at h; cases h
      | cons l L =>
        rw [readItems] at h
        cases hs : itemStart l with
        | none => simp only [hs] at h; cases h
        | some t =>
          simp only [hs] at h
          obtain ⟨hb1, hb2⟩ := itemLines_ok (src := text) t.content L (fun x hx => hL x hx)
          split at h
          · cases h
          · next bs hbs =>
            have h1 := iht _ (l.drop t.content :: (itemLines t.content L).1) _ (fun x hx => hb1 x hx) hbs
            split at h
            · cases h
            have one : LaterItems text [bs] := by rw [LaterItems, LaterItems]; exact ⟨h1, trivial⟩
            cases ha : (itemLines t.content L).2 with
            | nil =>
              simp only [ha] at h
              cases h
              exact ⟨one, by simp⟩
            | cons m rest =>
              simp only [ha] at h
              rw [ha] at hb2
              split at h
              · obtain ⟨a, ha', rfl⟩ := map_some h
                obtain ⟨i1, i2⟩ := ihi _ _ _ (fun x hx => hb2 x (List.mem_of_mem_tail hx)) ha'
                refine ⟨?_, i2⟩
                rw [LaterItems]; exact ⟨h1, i1⟩
              · split at h
                · cases h
                  exact ⟨one, fun x hx => hb2 x (List.mem_of_mem_tail hx)⟩
                · cases h

/-- The text after the first line. -/
def AfterFirst (src text : List Char) : Prop := ∀ t : List Char, t ≠ [] → t <:+: text → ∃ a b, src = a ++ '\n' :: (b ++ text)

theorem readsAs_later {src : List Char} {d : List TreeBlock} (h : ReadsAs src d) :
    ∃ text, AfterFirst src text ∧ LaterBlocks text d := by
  obtain ⟨hcr, hnul, _, htabs, hcont, k, hk⟩ := h
  refine ⟨joinWith ['\n'] (splitOn '\n' src).tail, ?_, (read_later _ k).1 (.none false) _ _ ?_ hk⟩
  · intro t ht h
    obtain ⟨l, L, e⟩ := List.exists_cons_of_ne_nil (splitOn_ne_nil '\n' src)
    rw [e, List.tail_cons] at h ⊢
    have hL : L ≠ [] := by
      rintro rfl
      exact ht (List.infix_nil.1 h)
    refine ⟨l, [], ?_⟩
    have := join_splitOn '\n' src
    rw [e, joinWith_cons _ _ hL] at this
    rw [← this]; simp
  · intro l hl
    have hm := List.mem_of_mem_tail hl
    refine ⟨splitOn_not_mem _ _ l hm, fun e => hcr (mem_splitOn_subset hm e), fun e => hnul (mem_splitOn_subset hm e), htabs l hm, ?_⟩
    obtain ⟨a, c, e⟩ := List.append_of_mem hl
    have := joinWith_infix ['\n'] [l] a c
    rw [e]
    simpa [joinWith] using this

/-! ### Trees exist -/

theorem leafNode_exists {src : List Char} {links : LinkMap} {b : CoreBlock} (h : LeafOk src b) (hc : HasContent links b)
    (hd : b.isDefinition = false) : ∃ n, LeafNode src links b n := by
  obtain ⟨hv, _, h⟩ := h
  cases b with
  | heading level ls =>
    obtain ⟨ns, hn⟩ := lineNodes_exist ls hc h
    exact ⟨_, ⟨1, 1, 1, 1⟩, ns, rfl, hn⟩
  | paragraph ls =>
    obtain ⟨ns, hn⟩ := lineNodes_exist ls hc h
    obtain ⟨l, r, rfl⟩ := List.exists_cons_of_ne_nil hv.1
    obtain ⟨p, hp⟩ := standsAt_of_infix (h l (by simp))
    refine ⟨_, p, ns, l, rfl, hn, hp, List.take_prefix _ _, ?_⟩
    intro e
    exact absurd (textLine_last (hv.2.1 l (by simp)) _ e) (by decide)
  | code info ls => exact ⟨_, ⟨1, 1, 1, 1⟩, rfl⟩
  | rule => exact ⟨_, ⟨1, 1, 1, 1⟩, rfl⟩
  | definition _ _ => exact absurd hd (by simp [CoreBlock.isDefinition])

/-- A leaf has a node. -/
structure LeafHas (src : List Char) (links : LinkMap) (b : CoreBlock) : Prop where
  ok : LeafOk src b
  content : HasContent links b
  shown : b.isDefinition = false

theorem leafNodes_exist {src : List Char} {links : LinkMap} : ∀ (bs : List CoreBlock), (∀ l ∈ bs, LeafHas src links l) →
    ∃ ns, LeafNodes src links bs ns
  | [], _ => ⟨[], rfl⟩
  | b :: bs, h => by
    have hb := h b (by simp)
    obtain ⟨n, hn⟩ := leafNode_exists hb.ok hb.content hb.shown
    obtain ⟨ns, hns⟩ := leafNodes_exist bs (fun l hl => h l (by simp [hl]))
    exact ⟨n :: ns, n, ns, rfl, hn, hns⟩

theorem cellNodes_exist {src : List Char} {links : LinkMap} : ∀ (cs : List (List Char)), (∀ l ∈ cellBlocks [cs], LeafHas src links l) →
    ∃ ns, CellNodes src links cs ns
  | [], _ => ⟨[], rfl⟩
  | c :: cs, h => by
    rw [cellBlocks_cell] at h
    obtain ⟨ns, hns⟩ := cellNodes_exist cs (fun l hl => h l (by simp [hl]))
    by_cases h0 : c = []
    · exact ⟨.mk .tableCell ⟨1, 1, 1, 1⟩ [] :: ns, _, [], ns, rfl, by rw [if_pos h0], hns⟩
    · have hb := h (.paragraph [c]) (by simp [h0])
      obtain ⟨ks, hk⟩ := lineNodes_exist [c] hb.content hb.ok.2.2
      exact ⟨.mk .tableCell ⟨1, 1, 1, 1⟩ ks :: ns, _, ks, ns, rfl, by rw [if_neg h0]; exact hk, hns⟩

theorem rowNodes_exist {src : List Char} {links : LinkMap} : ∀ (rows : List (List (List Char))), (∀ l ∈ cellBlocks rows, LeafHas src links l) →
    ∃ ns, RowNodes src links rows ns
  | [], _ => ⟨[], rfl⟩
  | r :: rows, h => by
    rw [cellBlocks_cons] at h
    obtain ⟨ns, hns⟩ := rowNodes_exist rows (fun l hl => h l (by simp [hl]))
    obtain ⟨cs, hcs⟩ := cellNodes_exist r (fun l hl => h l (by simp [hl]))
    exact ⟨.mk .tableRow ⟨1, 1, 1, 1⟩ cs :: ns, _, cs, ns, rfl, hcs, hns⟩

/-- A node below the first line. -/
theorem leafNode_below {src text : List Char} (ht : AfterFirst src text) {links : LinkMap} {b : CoreBlock} (h : LeafHas src links b)
    (hb : LeafRead text b) : ∃ n, LeafNode src links b n ∧ 2 ≤ n.pos.startLine := by
  obtain ⟨⟨hv, _, hok⟩, hc, hd⟩ := h
  cases b with
  | heading level ls =>
    obtain ⟨ns, hn⟩ := lineNodes_exist ls hc hok
    exact ⟨_, ⟨⟨2, 1, 1, 1⟩, ns, rfl, hn⟩, Nat.le_refl 2⟩
  | paragraph ls =>
    obtain ⟨ns, hn⟩ := lineNodes_exist ls hc hok
    obtain ⟨l, r, rfl⟩ := List.exists_cons_of_ne_nil hv.1
    have hi : l <:+: text := hb.2 l (by simp)
    obtain ⟨x, y, e⟩ := ht l (textLine_ne_nil (hv.2.1 l (by simp))) hi
    obtain ⟨u, w, e2⟩ := hi
    refine ⟨_, ⟨_, ns, l, rfl, hn, ⟨x ++ '\n' :: (y ++ u), w, ?_, rfl⟩, List.take_prefix _ _, ?_⟩, ?_⟩
    · rw [e, ← e2]; simp
    · intro e
      exact absurd (textLine_last (hv.2.1 l (by simp)) _ e) (by decide)
    · show 2 ≤ lineAfter _
      rw [lineAfter, List.count_append, List.count_cons_self]
      omega
  | code info ls => exact ⟨_, ⟨⟨2, 1, 1, 1⟩, rfl⟩, Nat.le_refl 2⟩
  | rule => exact ⟨_, ⟨⟨2, 1, 1, 1⟩, rfl⟩, Nat.le_refl 2⟩
  | definition _ _ => exact absurd hd (by simp [CoreBlock.isDefinition])

mutual

theorem treeNode_exists {src text : List Char} (ht : AfterFirst src text) {links : LinkMap} : ∀ (b : TreeBlock) (line : Nat),
    (∀ l ∈ leaves b, LeafHas src links l) → Later text b →
    ∃ n, TreeNode src links b n ∧ (TreeBlock.isList b = true → n.pos.startLine = line)
  | .leaf g b, _, h, _ => by
    have h := h b (by simp [leaves])
    obtain ⟨n, hn⟩ := leafNode_exists h.ok h.content h.shown
    exact ⟨n, by rw [TreeNode]; exact hn, by simp [TreeBlock.isList]⟩
  | .quote g a bs, _, h, hl => by
    rw [leaves] at h
    rw [Later] at hl
    cases a with
    | none =>
      obtain ⟨ns, hn⟩ := leafNodes_exist bs h
      exact ⟨.mk .blockQuote ⟨1, 1, 1, 1⟩ ns, by rw [TreeNode]; exact ⟨_, _, rfl, hn⟩, by simp [TreeBlock.isList]⟩
    | some a =>
      cases bs with
      | nil =>
        exact ⟨.mk (.alert a.kind none) ⟨1, 1, 1, 1⟩ [], by rw [TreeNode]; exact ⟨_, _, ⟨rfl, by simp⟩, rfl⟩, by simp [TreeBlock.isList]⟩
      | cons b bs =>
        obtain ⟨m, hm, h2⟩ := leafNode_below ht (h b (by simp)) (hl rfl b (by simp))
        obtain ⟨ns, hn⟩ := leafNodes_exist bs (fun l hl => h l (by simp [hl]))
        refine ⟨.mk (.alert a.kind none) ⟨if a.blank then 0 else m.pos.startLine, 1, 1, 1⟩ (m :: ns), ?_, by simp [TreeBlock.isList]⟩
        rw [TreeNode]
        refine ⟨_, _, ⟨rfl, ?_⟩, m, ns, rfl, hm, hn⟩
        intro x hx
        obtain rfl : m = x := by simpa using hx
        cases a.blank with
        | true => simp; omega
        | false => simp
  | .table g aligns rows, _, h, _ => by
    rw [leaves] at h
    obtain ⟨ns, hn⟩ := rowNodes_exist rows h
    exact ⟨.mk (.table aligns) ⟨1, 1, 1, 1⟩ ns, by rw [TreeNode]; exact ⟨_, _, rfl, hn⟩, by simp [TreeBlock.isList]⟩
  | .list g s t items, line, h, hl => by
    rw [leaves] at h
    rw [Later] at hl
    obtain ⟨ns, hn⟩ := itemNodes_exist ht items h hl
    exact ⟨.mk (.list (listType s) t) ⟨line, 1, line, 1⟩ ns, by rw [TreeNode]; exact ⟨_, _, rfl, hn⟩, fun _ => rfl⟩

theorem itemNodes_exist {src text : List Char} (ht : AfterFirst src text) {links : LinkMap} : ∀ (items : List (List TreeBlock)),
    (∀ l ∈ itemsLeaves items, LeafHas src links l) → LaterItems text items → ∃ ns, ItemNodes src links items ns
  | [], _, _ => ⟨[], by rw [ItemNodes]⟩
  | it :: its, h, hl => by
    rw [itemsLeaves] at h
    rw [LaterItems] at hl
    obtain ⟨cs, hc⟩ := childNodes_exist ht it none (fun l hl => h l (by simp [hl])) hl.1
    obtain ⟨ns, hn⟩ := itemNodes_exist ht its (fun l hl => h l (by simp [hl])) hl.2
    exact ⟨.mk .item ⟨1, 1, 1, 1⟩ cs :: ns, by rw [ItemNodes]; exact ⟨_, cs, ns, rfl, hc, hn⟩⟩

theorem childNodes_exist {src text : List Char} (ht : AfterFirst src text) {links : LinkMap} : ∀ (bs : List TreeBlock) (prev : Option Node),
    (∀ l ∈ blocksLeaves bs, LeafHas src links l) → LaterBlocks text bs → ∃ ns, ChildNodes src links prev bs ns
  | [], _, _, _ => ⟨[], by rw [ChildNodes]⟩
  | b :: bs, prev, h, hlt => by
    rw [blocksLeaves] at h
    rw [LaterBlocks] at hlt
    obtain ⟨n, hn, hl⟩ := treeNode_exists ht b ((prev.map fun m => m.pos.endLine + if b.gap then 2 else 1).getD 1) (fun l hl => h l (by simp [hl])) hlt.1
    obtain ⟨ns, hns⟩ := childNodes_exist ht bs (some n) (fun l hl => h l (by simp [hl])) hlt.2
    refine ⟨n :: ns, ?_⟩
    rw [ChildNodes]
    refine ⟨n, ns, rfl, hn, ?_, hns⟩
    rintro m g s t its rfl rfl
    rw [hl rfl]
    cases g <;> simp [TreeBlock.gap]

end

theorem topNodes_exist {src text : List Char} (ht : AfterFirst src text) {links : LinkMap} : ∀ (bs : List TreeBlock),
    (∀ l ∈ blocksLeaves bs, LeafHas src links l) → (∀ b ∈ bs, Later text b) → ∃ ns, TopNodes src links bs ns
  | [], _, _ => ⟨[], rfl⟩
  | b :: bs, h, hl => by
    rw [blocksLeaves] at h
    obtain ⟨n, hn, _⟩ := treeNode_exists ht b 1 (fun l hl => h l (by simp [hl])) (hl b (by simp))
    obtain ⟨ns, hns⟩ := topNodes_exist ht bs (fun l hl => h l (by simp [hl])) (fun x hx => hl x (by simp [hx]))
    exact ⟨n :: ns, n, ns, rfl, hn, hns⟩

/-! ### Definitions stand at the top level -/

mutual

theorem leaves_shown : ∀ b : TreeBlock, Well b → b.isDefinition = false → ∀ l ∈ leaves b, l.isDefinition = false
  | .leaf _ b, _, hd => by
    intro l hl
    rw [leaves, List.mem_singleton] at hl
    rw [hl]; exact hd
  | .quote _ _ bs, hw, _ => by
    rw [Well] at hw
    rw [leaves]; exact hw.1
  | .table _ _ rows, _, _ => by
    intro l hl
    rw [leaves, cellBlocks] at hl
    obtain ⟨c, _, rfl⟩ := List.mem_map.1 hl
    rfl
  | .list _ _ _ items, hw, _ => by
    rw [Well] at hw
    rw [leaves]; exact itemsLeaves_shown items hw.2.2.2

theorem itemsLeaves_shown : ∀ items : List (List TreeBlock), WellItems items → ∀ l ∈ itemsLeaves items, l.isDefinition = false
  | [], _ => by simp [itemsLeaves]
  | it :: its, hw => by
    rw [WellItems] at hw
    intro l hl
    rw [itemsLeaves] at hl
    rcases List.mem_append.1 hl with hl | hl
    · exact blocksLeaves_shown it hw.2.2.1 hw.2.1 l hl
    · exact itemsLeaves_shown its hw.2.2.2 l hl

theorem blocksLeaves_shown : ∀ bs : List TreeBlock, WellBlocks bs → bs.any TreeBlock.isDefinition = false →
    ∀ l ∈ blocksLeaves bs, l.isDefinition = false
  | [], _, _ => by simp [blocksLeaves]
  | b :: bs, hw, hd => by
    rw [WellBlocks] at hw
    rw [List.any_cons, Bool.or_eq_false_iff] at hd
    intro l hl
    rw [blocksLeaves] at hl
    rcases List.mem_append.1 hl with hl | hl
    · exact leaves_shown b hw.1 hd.1 l hl
    · exact blocksLeaves_shown bs hw.2 hd.2 l hl

end

theorem shownTrees_cons (b : TreeBlock) (bs : List TreeBlock) :
    shownTrees (b :: bs) = if b.isDefinition then shownTrees bs else b :: shownTrees bs := by
  unfold shownTrees
  cases h : b.isDefinition <;> simp [h]

theorem shownTrees_any (d : List TreeBlock) : (shownTrees d).any TreeBlock.isDefinition = false := by
  rw [List.any_eq_false]
  intro b hb
  have := (List.mem_filter.1 hb).2
  simpa using this

theorem blocksLeaves_mem {l : CoreBlock} : ∀ {bs : List TreeBlock}, l ∈ blocksLeaves bs ↔ ∃ b ∈ bs, l ∈ leaves b
  | [] => by simp [blocksLeaves]
  | b :: bs => by rw [blocksLeaves, List.mem_append, blocksLeaves_mem (bs := bs)]; simp

theorem shownLeaves_mem {d : List TreeBlock} {l : CoreBlock} (h : l ∈ blocksLeaves (shownTrees d)) : l ∈ blocksLeaves d := by
  obtain ⟨b, hb, hl⟩ := blocksLeaves_mem.1 h
  exact blocksLeaves_mem.2 ⟨b, (List.mem_filter.1 hb).1, hl⟩

theorem wellBlocks_iff : ∀ {bs : List TreeBlock}, WellBlocks bs ↔ ∀ b ∈ bs, Well b
  | [] => by rw [WellBlocks]; simp
  | b :: bs => by rw [WellBlocks, wellBlocks_iff (bs := bs)]; simp

theorem wellBlocks_shown {d : List TreeBlock} (h : WellBlocks d) : WellBlocks (shownTrees d) :=
  wellBlocks_iff.2 fun b hb => wellBlocks_iff.1 h b (List.mem_filter.1 hb).1

theorem document_exists {src : List Char} {d : List TreeBlock} (h : ReadsAs src d) : ∃ root, IsDocument src d root := by
  have hok := readsAs_ok h
  obtain ⟨text, ht, hlt⟩ := readsAs_later h
  have later : ∀ {bs : List TreeBlock}, LaterBlocks text bs → ∀ b ∈ bs, Later text b := by
    intro bs
    induction bs with
    | nil => simp
    | cons x bs ih =>
      intro h b hb
      rw [LaterBlocks] at h
      rcases List.mem_cons.1 hb with rfl | hb
      · exact h.1
      · exact ih h.2 b hb
  obtain ⟨ns, hn⟩ := topNodes_exist ht (links := linksOf d) (shownTrees d) (fun l hl =>
    ⟨hok.1 l (shownLeaves_mem hl), h.2.2.2.2.1 l (shownLeaves_mem hl),
      blocksLeaves_shown _ (wellBlocks_shown hok.2) (shownTrees_any d) l hl⟩) fun b hb => later hlt b (List.mem_filter.1 hb).1
  exact ⟨_, ⟨1, 1, 1, 1⟩, ns, rfl, hn⟩

end Hongdown.Model
