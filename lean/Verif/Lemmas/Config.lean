import Verif.Spec.Config
import Verif.Lemmas.Str

set_option linter.unusedSimpArgs false

namespace Hongdown
open Model Spec

/-! ### Thematic break styles -/

/-- A character which the loop accepts. -/
def styleChar (c : Char) : Prop := c = '*' ∨ c = '-' ∨ c = '_' ∨ c = ' ' ∨ c = '\t'

theorem countMarkers_ok (s : List Char) : ∀ n : MarkerCounts, (∀ c ∈ s, styleChar c) →
    countMarkers n s = ⟨n.asterisk + s.count '*', n.hyphen + s.count '-', n.underscore + s.count '_', n.other⟩ := by
  induction s with
  | nil => intro n _; simp [countMarkers]
  | cons c s ih =>
    intro n h
    have hs : ∀ d ∈ s, styleChar d := fun d hd => h d (by simp [hd])
    rw [countMarkers]
    rcases h c (by simp) with rfl | rfl | rfl | rfl | rfl
    · rw [if_pos rfl, ih _ hs]; simp [List.count_cons]; omega
    · rw [if_neg (by decide), if_pos rfl, ih _ hs]; simp [List.count_cons]; omega
    · rw [if_neg (by decide), if_neg (by decide), if_pos rfl, ih _ hs]; simp [List.count_cons]; omega
    · rw [if_neg (by decide), if_neg (by decide), if_neg (by decide), if_pos (.inl rfl), ih _ hs]
      simp [List.count_cons]
    · rw [if_neg (by decide), if_neg (by decide), if_neg (by decide), if_pos (.inr rfl), ih _ hs]
      simp [List.count_cons]

theorem countMarkers_bad (s : List Char) : ∀ n : MarkerCounts, ¬ (∀ c ∈ s, styleChar c) →
    (countMarkers n s).other = true := by
  induction s with
  | nil => intro n h; exact absurd (by simp) h
  | cons c s ih =>
    intro n h
    by_cases hc : styleChar c
    · have hs : ¬ ∀ d ∈ s, styleChar d := by
        intro h'
        apply h
        intro d hd
        rcases List.mem_cons.mp hd with rfl | hd
        · exact hc
        · exact h' d hd
      rw [countMarkers]
      repeat' split
      all_goals first
        | exact ih _ hs
        | rfl
    · rw [countMarkers]
      simp only [styleChar, not_or] at hc
      rw [if_neg hc.1, if_neg hc.2.1, if_neg hc.2.2.1, if_neg (by simp [hc.2.2.2.1, hc.2.2.2.2])]

theorem count_ws {t : List Char} (h : ∀ c ∈ t, isWs c = true) {m : Char} (hm : isWs m = false) :
    t.count m = 0 := by
  rw [List.count_eq_zero]
  intro hmem
  rw [h m hmem] at hm
  cases hm

theorem count_trim (s : List Char) {m : Char} (hm : isWs m = false) : (trim s).count m = s.count m := by
  obtain ⟨a, b, ha, hb, e⟩ := trim_append s
  conv => rhs; rw [e]
  rw [List.count_append, List.count_append, count_ws ha hm, count_ws hb hm]
  simp

theorem one_of_three (a b c : Nat) : (([a, b, c].filter (3 ≤ ·)).length = 1) ↔
    (3 ≤ a ∧ b < 3 ∧ c < 3) ∨ (a < 3 ∧ 3 ≤ b ∧ c < 3) ∨ (a < 3 ∧ b < 3 ∧ 3 ≤ c) := by
  simp only [List.filter]
  by_cases ha : 3 ≤ a <;> by_cases hb : 3 ≤ b <;> by_cases hc : 3 ≤ c <;>
    simp [ha, hb, hc] <;> omega

theorem styleNew_iff (s t : List Char) : thematicBreakStyleNew s = some t ↔ t = s ∧ StyleOk s := by
  have hc := @count_trim s
  have key : StyleOk s ↔ (∀ c ∈ trim s, styleChar c) ∧
      ((3 ≤ s.count '*' ∧ s.count '-' < 3 ∧ s.count '_' < 3) ∨
        (s.count '*' < 3 ∧ 3 ≤ s.count '-' ∧ s.count '_' < 3) ∨
        (s.count '*' < 3 ∧ s.count '-' < 3 ∧ 3 ≤ s.count '_')) := by
    constructor
    · rintro ⟨h1, m, hm, h3, h4⟩
      refine ⟨h1, ?_⟩
      rcases hm with rfl | rfl | rfl
      · exact .inl ⟨h3, h4 '-' (by simp) (by decide), h4 '_' (by simp) (by decide)⟩
      · exact .inr (.inl ⟨h4 '*' (by simp) (by decide), h3, h4 '_' (by simp) (by decide)⟩)
      · exact .inr (.inr ⟨h4 '*' (by simp) (by decide), h4 '-' (by simp) (by decide), h3⟩)
    · rintro ⟨h1, h | h | h⟩
      · refine ⟨h1, '*', by simp, h.1, ?_⟩
        rintro m (rfl | rfl | rfl) hm
        · exact absurd rfl hm
        · exact h.2.1
        · exact h.2.2
      · refine ⟨h1, '-', by simp, h.2.1, ?_⟩
        rintro m (rfl | rfl | rfl) hm
        · exact h.1
        · exact absurd rfl hm
        · exact h.2.2
      · refine ⟨h1, '_', by simp, h.2.2, ?_⟩
        rintro m (rfl | rfl | rfl) hm
        · exact h.1
        · exact h.2.1
        · exact absurd rfl hm
  rw [thematicBreakStyleNew, key]
  split
  · rename_i h0
    constructor
    · intro h; cases h
    · rintro ⟨_, _, h⟩
      have h1 := hc (m := '*') (by decide)
      have h2 := hc (m := '-') (by decide)
      have h3 := hc (m := '_') (by decide)
      rw [h0] at h1 h2 h3
      simp only [List.count_nil] at h1 h2 h3
      omega
  · by_cases hs : ∀ c ∈ trim s, styleChar c
    · simp only [countMarkers_ok _ _ hs, Nat.zero_add, Bool.false_eq_true, if_false,
        hc (m := '*') (by decide), hc (m := '-') (by decide), hc (m := '_') (by decide)]
      constructor
      · intro h
        split at h
        · rename_i h'
          cases h
          exact ⟨rfl, hs, (one_of_three _ _ _).mp h'⟩
        · cases h
      · rintro ⟨rfl, _, h'⟩
        rw [if_pos ((one_of_three _ _ _).mpr h')]
    · simp only [countMarkers_bad _ _ hs, if_true]
      constructor
      · intro h; cases h
      · rintro ⟨_, h, _⟩; exact absurd h hs

/-! ### Reading values -/

theorem fieldD_some {α : Type} {t : List (List Char × Toml)} {key : String} {read : Toml → Option α}
    {d v : α} (h : fieldD t key read d = some v) : v = d ∨ ∃ x, read x = some v := by
  rw [fieldD] at h
  split at h
  · cases h; exact .inl rfl
  · exact .inr ⟨_, h⟩

theorem fieldO_some {α : Type} {t : List (List Char × Toml)} {key : String} {read : Toml → Option α}
    {v : Option α} (h : fieldO t key read = some v) : v = none ∨ ∃ x y, read x = some y ∧ v = some y := by
  rw [fieldO] at h
  split at h
  · cases h; exact .inl rfl
  · rename_i x _
    rw [Option.map_eq_some_iff] at h
    obtain ⟨y, h1, h2⟩ := h
    exact .inr ⟨_, _, h1, h2.symm⟩

/-- What a section has to fulfil. -/
def UlOk (c : UnorderedListConfig) : Prop :=
  (c.marker = '-' ∨ c.marker = '*' ∨ c.marker = '+') ∧ c.leadingSpaces ≤ 3 ∧ c.trailingSpaces ≤ 3 ∧
    1 ≤ c.indentWidth

def OlOk (c : OrderedListConfig) : Prop :=
  (c.oddLevelMarker = '.' ∨ c.oddLevelMarker = ')') ∧ (c.evenLevelMarker = '.' ∨ c.evenLevelMarker = ')') ∧
    1 ≤ c.indentWidth

def CbOk (c : CodeBlockConfig) : Prop :=
  (c.fenceChar = '~' ∨ c.fenceChar = '`') ∧ 3 ≤ c.minFenceLength

def TbOk (c : ThematicBreakConfig) : Prop := StyleOk c.style ∧ c.leadingSpaces ≤ 3

def PcOk (c : PunctuationConfig) : Prop := DashOk c.enDash ∧ DashOk c.emDash

/-- What a configuration has to fulfil. -/
structure ConfigOk (c : Config) : Prop where
  lineWidth : 8 ≤ c.lineWidth
  ul : UlOk c.unorderedList
  ol : OlOk c.orderedList
  cb : CbOk c.codeBlock
  tb : TbOk c.thematicBreak
  pc : PcOk c.punctuation

theorem natBind {f : Nat → Option Nat} {x : Toml} {v : Nat} (h : x.nat?.bind f = some v) :
    ∃ n, f n = some v := by
  cases hn : x.nat? with
  | none => rw [hn] at h; cases h
  | some n => rw [hn] at h; exact ⟨n, h⟩

theorem readUl_ok {v : Toml} {c : UnorderedListConfig} (h : readUnorderedList v = some c) : UlOk c := by
  simp only [readUnorderedList, Option.bind_eq_bind, Option.bind_eq_some_iff] at h
  obtain ⟨t, _, m, hm, ls, hls, ts, hts, iw, hiw, e⟩ := h
  cases e
  refine ⟨?_, ?_, ?_, ?_⟩
  · rcases fieldD_some hm with rfl | ⟨x, hx⟩
    · simp
    · rw [readUnorderedMarker] at hx
      split at hx <;> cases hx <;> simp
  · rcases fieldD_some hls with rfl | ⟨x, hx⟩
    · simp
    · obtain ⟨n, hn⟩ := natBind hx
      rw [leadingSpacesNew] at hn
      split at hn
      · cases hn
      · cases hn; simp; omega
  · rcases fieldD_some hts with rfl | ⟨x, hx⟩
    · simp
    · obtain ⟨n, hn⟩ := natBind hx
      rw [trailingSpacesNew] at hn
      split at hn
      · cases hn
      · cases hn; simp; omega
  · rcases fieldD_some hiw with rfl | ⟨x, hx⟩
    · simp
    · obtain ⟨n, hn⟩ := natBind hx
      rw [indentWidthNew] at hn
      split at hn
      · cases hn
      · cases hn; simp; omega

theorem readOl_ok {v : Toml} {c : OrderedListConfig} (h : readOrderedList v = some c) : OlOk c := by
  simp only [readOrderedList, Option.bind_eq_bind, Option.bind_eq_some_iff] at h
  obtain ⟨t, _, m, hm, ls, hls, ts, hts, iw, hiw, e⟩ := h
  cases e
  refine ⟨?_, ?_, ?_⟩
  · rcases fieldD_some hm with rfl | ⟨x, hx⟩
    · simp
    · rw [readOrderedMarker] at hx
      split at hx <;> cases hx <;> simp
  · rcases fieldD_some hls with rfl | ⟨x, hx⟩
    · simp
    · rw [readOrderedMarker] at hx
      split at hx <;> cases hx <;> simp
  · rcases fieldD_some hiw with rfl | ⟨x, hx⟩
    · simp
    · obtain ⟨n, hn⟩ := natBind hx
      rw [indentWidthNew] at hn
      split at hn
      · cases hn
      · cases hn; simp; omega

theorem readCb_ok {v : Toml} {c : CodeBlockConfig} (h : readCodeBlock v = some c) : CbOk c := by
  simp only [readCodeBlock, Option.bind_eq_bind, Option.bind_eq_some_iff] at h
  obtain ⟨t, _, m, hm, ls, hls, ts, hts, iw, hiw, fs, _, e⟩ := h
  cases e
  refine ⟨?_, ?_⟩
  · rcases fieldD_some hm with rfl | ⟨x, hx⟩
    · simp
    · rw [readFenceChar] at hx
      split at hx <;> cases hx <;> simp
  · rcases fieldD_some hls with rfl | ⟨x, hx⟩
    · simp
    · obtain ⟨n, hn⟩ := natBind hx
      rw [minFenceLengthNew] at hn
      split at hn
      · cases hn
      · cases hn; simp; omega

theorem defaultStyle_ok : StyleOk (({} : ThematicBreakConfig).style) :=
  ((styleNew_iff _ (({} : ThematicBreakConfig).style)).mp (by decide +kernel)).2

theorem readTb_ok {v : Toml} {c : ThematicBreakConfig} (h : readThematicBreak v = some c) : TbOk c := by
  simp only [readThematicBreak, Option.bind_eq_bind, Option.bind_eq_some_iff] at h
  obtain ⟨t, _, m, hm, ls, hls, e⟩ := h
  cases e
  refine ⟨?_, ?_⟩
  · rcases fieldD_some hm with rfl | ⟨x, hx⟩
    · exact defaultStyle_ok
    · cases hs : x.str? with
      | none => rw [hs] at hx; cases hx
      | some s =>
        rw [hs] at hx
        obtain ⟨rfl, h2⟩ := (styleNew_iff s m).mp hx
        exact h2
  · rcases fieldD_some hls with rfl | ⟨x, hx⟩
    · simp
    · obtain ⟨n, hn⟩ := natBind hx
      rw [leadingSpacesNew] at hn
      split at hn
      · cases hn
      · cases hn; simp; omega

theorem isAsciiGraphic_iff (c : Char) : isAsciiGraphic c = true ↔ '!' ≤ c ∧ c ≤ '~' := by
  rw [isAsciiGraphic, Char.le_def, Char.le_def, UInt32.le_iff_toNat_le, UInt32.le_iff_toNat_le,
    Bool.and_eq_true, decide_eq_true_eq, decide_eq_true_eq]
  exact Iff.rfl

theorem dashNew_iff (s t : List Char) :
    dashPatternNew s = some t ↔ t = s ∧ s ≠ [] ∧ ∀ c ∈ s, '!' ≤ c ∧ c ≤ '~' := by
  rw [dashPatternNew]
  have h2 : (s.any fun c => !isAsciiGraphic c) = true ↔ ¬ ∀ c ∈ s, '!' ≤ c ∧ c ≤ '~' := by
    simp only [List.any_eq_true, Bool.not_eq_true', ← isAsciiGraphic_iff]
    constructor
    · rintro ⟨c, hc, h⟩ h'
      rw [h' c hc] at h; cases h
    · intro h
      apply Classical.byContradiction
      intro h'
      apply h
      intro c hc
      cases hb : isAsciiGraphic c with
      | true => rfl
      | false => exact absurd ⟨c, hc, hb⟩ h'
  split
  · rename_i h; simp [h]
  · rename_i h
    split
    · rename_i h3
      have := h2.mp h3
      constructor
      · intro h; cases h
      · rintro ⟨_, _, h5⟩; exact absurd h5 this
    · rename_i h3
      have h5 : ∀ c ∈ s, '!' ≤ c ∧ c ≤ '~' := Classical.not_not.mp (fun h => h3 (h2.mpr h))
      simp only [Option.some.injEq]
      constructor
      · rintro rfl; exact ⟨rfl, h, h5⟩
      · rintro ⟨rfl, _⟩; rfl

theorem readDash_ok {x : Toml} {v : Option (List Char)} (h : readDash x = some v) : DashOk v := by
  rw [readDash.eq_def] at h
  split at h
  · cases h; intro s hs; cases hs
  · rw [Option.map_eq_some_iff] at h
    obtain ⟨y, h1, rfl⟩ := h
    obtain ⟨rfl, h2⟩ := (dashNew_iff _ _).mp h1
    intro s hs
    cases hs
    exact h2
  · cases h

theorem emDefault_ok : DashOk (some ['-', '-']) := by
  intro s hs
  cases hs
  exact ⟨by simp, by decide⟩

theorem readPc_ok {v : Toml} {c : PunctuationConfig} (h : readPunctuation v = some c) : PcOk c := by
  simp only [readPunctuation, Option.bind_eq_bind, Option.bind_eq_some_iff] at h
  obtain ⟨t, _, m, hm, ls, hls, ap, _, el, _, en, hen, em, hem, e⟩ := h
  cases e
  refine ⟨?_, ?_⟩
  · rcases fieldD_some hen with rfl | ⟨x, hx⟩
    · intro s hs; cases hs
    · exact readDash_ok hx
  · rcases fieldD_some hem with rfl | ⟨x, hx⟩
    · exact emDefault_ok
    · exact readDash_ok hx

theorem default_ok : ConfigOk {} :=
  ⟨by decide, ⟨by simp, by decide, by decide, by decide⟩, ⟨by simp, by simp, by decide⟩,
   ⟨by simp, by decide⟩, ⟨defaultStyle_ok, by decide⟩,
   ⟨(by intro s hs; cases hs), emDefault_ok⟩⟩

theorem readLw {x : Toml} {v : Nat} (hx : x.nat?.bind lineWidthNew = some v) : 8 ≤ v := by
  obtain ⟨n, hn⟩ := natBind hx
  rw [lineWidthNew] at hn
  split at hn
  · cases hn
  · cases hn; omega

theorem readConfig_ok {t : List (List Char × Toml)} {c : Config} (h : readConfig t = some c) : ConfigOk c := by
  simp only [readConfig, Option.bind_eq_bind, Option.bind_eq_some_iff] at h
  obtain ⟨ni, _, lw, hlw, inc, _, exc, _, ga, _, hd, _, ul, hul, ol, hol, cb, hcb, tb, htb, p, hp, e⟩ := h
  cases e
  refine ⟨?_, ?_, ?_, ?_, ?_, ?_⟩
  · rcases fieldD_some hlw with rfl | ⟨x, hx⟩
    · show 8 ≤ 80; decide
    · exact readLw hx
  · rcases fieldD_some hul with rfl | ⟨x, hx⟩
    · exact default_ok.ul
    · exact readUl_ok hx
  · rcases fieldD_some hol with rfl | ⟨x, hx⟩
    · exact default_ok.ol
    · exact readOl_ok hx
  · rcases fieldD_some hcb with rfl | ⟨x, hx⟩
    · exact default_ok.cb
    · exact readCb_ok hx
  · rcases fieldD_some htb with rfl | ⟨x, hx⟩
    · exact default_ok.tb
    · exact readTb_ok hx
  · rcases fieldD_some hp with rfl | ⟨x, hx⟩
    · exact default_ok.pc
    · exact readPc_ok hx

/-- What a layer has to fulfil. -/
structure LayerOk (c : ConfigLayer) : Prop where
  lineWidth : ∀ v, c.lineWidth = some v → 8 ≤ v
  ul : ∀ v, c.unorderedList = some v → UlOk v
  ol : ∀ v, c.orderedList = some v → OlOk v
  cb : ∀ v, c.codeBlock = some v → CbOk v
  tb : ∀ v, c.thematicBreak = some v → TbOk v
  pc : ∀ v, c.punctuation = some v → PcOk v

theorem readLayer_ok {t : List (List Char × Toml)} {c : ConfigLayer} (h : readLayer t = some c) : LayerOk c := by
  simp only [readLayer, Option.bind_eq_bind, Option.bind_eq_some_iff] at h
  obtain ⟨ni, _, lw, hlw, inc, _, exc, _, ga, _, hd, _, ul, hul, ol, hol, cb, hcb, tb, htb, p, hp, e⟩ := h
  cases e
  refine ⟨?_, ?_, ?_, ?_, ?_, ?_⟩ <;> intro v hv <;> subst hv
  · rcases fieldO_some hlw with h | ⟨x, y, hx, h⟩ <;> cases h
    exact readLw hx
  · rcases fieldO_some hul with h | ⟨x, y, hx, h⟩ <;> cases h
    exact readUl_ok hx
  · rcases fieldO_some hol with h | ⟨x, y, hx, h⟩ <;> cases h
    exact readOl_ok hx
  · rcases fieldO_some hcb with h | ⟨x, y, hx, h⟩ <;> cases h
    exact readCb_ok hx
  · rcases fieldO_some htb with h | ⟨x, y, hx, h⟩ <;> cases h
    exact readTb_ok hx
  · rcases fieldO_some hp with h | ⟨x, y, hx, h⟩ <;> cases h
    exact readPc_ok hx

theorem mergeOver_ok {l : ConfigLayer} {c : Config} (hl : LayerOk l) (hc : ConfigOk c) :
    ConfigOk (mergeOver l c) := by
  have key : ∀ {α : Type} {P : α → Prop} (o : Option α) (b : α), (∀ v, o = some v → P v) → P b →
      P (o.getD b) := by
    intro α P o b h hb
    cases o with
    | none => exact hb
    | some v => exact h v rfl
  exact ⟨key _ _ hl.lineWidth hc.lineWidth, key _ _ hl.ul hc.ul, key _ _ hl.ol hc.ol, key _ _ hl.cb hc.cb,
    key _ _ hl.tb hc.tb, key _ _ hl.pc hc.pc⟩

theorem toOptions_ok {c : Config} {lw : Option Nat} {o : Options} (hc : ConfigOk c)
    (h : toOptions c lw = some o) : OptionsOk o := by
  have : ∃ w, 8 ≤ w ∧ toOptions { c with lineWidth := w } none = some o := by
    cases lw with
    | none => exact ⟨c.lineWidth, hc.lineWidth, h⟩
    | some w =>
      simp only [toOptions, Option.bind_eq_bind, lineWidthNew] at h
      split at h
      · cases h
      · rename_i h8
        exact ⟨w, by omega, h⟩
  obtain ⟨w, h8, e⟩ := this
  cases e
  obtain ⟨u1, u2, u3, u4⟩ := hc.ul
  obtain ⟨o1, o2, o3⟩ := hc.ol
  exact ⟨h8, u2, u3, u4, o3, u1, o1, o2, hc.cb.1, hc.cb.2, hc.tb.1, hc.tb.2, hc.pc.1, hc.pc.2⟩

/-! ### The cascade -/

theorem layerFromFile_ok {t : Option (List (List Char × Toml))} {l : ConfigLayer}
    (h : layerFromFile t = some l) : LayerOk l := by
  cases t with
  | none => cases h
  | some t => exact readLayer_ok h

theorem tryLoadLayer_ok {w : Places} {p : Path} {l : Option ConfigLayer} (h : tryLoadLayer w p = some l) :
    ∀ x ∈ l.toList, LayerOk x := by
  rw [tryLoadLayer] at h
  split at h
  · cases h; simp
  · rw [Option.map_eq_some_iff] at h
    obtain ⟨y, hy, rfl⟩ := h
    intro x hx
    simp at hx
    subst hx
    exact layerFromFile_ok hy

theorem loadLegacy_ok {w : Places} {l : Option ConfigLayer} (h : loadLegacy w = some l) :
    ∀ x ∈ l.toList, LayerOk x := by
  rw [loadLegacy] at h
  split at h
  · exact tryLoadLayer_ok h
  · cases h; simp

theorem loadXdg_ok {w : Places} {l : Option ConfigLayer} (h : loadXdg w = some l) :
    ∀ x ∈ l.toList, LayerOk x := by
  rw [loadXdg] at h
  split at h
  · exact tryLoadLayer_ok h
  · cases h; simp

/-- What the search finds. -/
theorem discoverGo_spec (w : Places) : ∀ (rev : List (List Char)) {r : Option (Path × ConfigLayer)},
    discoverGo w rev = some r →
    (∀ p l, r = some (p, l) → LayerOk l ∧ IsProjectFile w rev.reverse p ∧
      ∃ t, w.config p = some t ∧ layerFromFile t = some l) ∧
    (r = none → ∀ a b, rev.reverse = a ++ b → w.config (a ++ [configFileName]) = none) := by
  intro rev
  induction rev with
  | nil =>
    intro r h
    rw [discoverGo] at h
    split at h
    · rename_i t ht
      rw [Option.map_eq_some_iff] at h
      obtain ⟨l, hl, rfl⟩ := h
      refine ⟨?_, by intro h; cases h⟩
      intro p l' e
      cases e
      refine ⟨layerFromFile_ok hl, ⟨[], [], rfl, rfl, by rw [ht]; rfl, ?_⟩, t, ht, hl⟩
      intro b1 b2 e hne
      simp at e
      exact absurd e.1 hne
    · rename_i ht
      cases h
      refine ⟨(by intro p l h; cases h), ?_⟩
      intro _ a b e
      have ha : a = [] := by simp at e; exact e.1
      subst ha
      exact ht
  | cons c cs ih =>
    intro r h
    rw [discoverGo] at h
    split at h
    · rename_i t ht
      rw [Option.map_eq_some_iff] at h
      obtain ⟨l, hl, rfl⟩ := h
      refine ⟨?_, by intro h; cases h⟩
      intro p l' e
      cases e
      refine ⟨layerFromFile_ok hl, ⟨(c :: cs).reverse, [], by simp, rfl, by rw [ht]; rfl, ?_⟩, t, ht, hl⟩
      intro b1 b2 e hne
      simp at e
      exact absurd e.1 hne
    · rename_i ht
      obtain ⟨h1, h2⟩ := ih h
      constructor
      · intro p l e
        obtain ⟨k1, ⟨dir, below, k2, k3, k4, k5⟩, k6⟩ := h1 p l e
        refine ⟨k1, ⟨dir, below ++ [c], by simp [k2], k3, k4, ?_⟩, k6⟩
        intro b1 b2 e hne
        rcases List.eq_nil_or_concat b2 with rfl | ⟨b3, x, rfl⟩
        · rw [List.append_nil] at e
          rw [← e]
          have : (c :: cs).reverse = dir ++ (below ++ [c]) := by simp [k2]
          rw [← this]
          exact ht
        · rw [List.concat_eq_append, ← List.append_assoc] at e
          have := (List.append_inj' e rfl).1
          exact k5 b1 b3 this hne
      · intro e a b hab
        rcases List.eq_nil_or_concat b with rfl | ⟨b3, x, rfl⟩
        · rw [List.append_nil] at hab
          rw [← hab]
          exact ht
        · rw [List.concat_eq_append, ← List.append_assoc, List.reverse_cons] at hab
          exact h2 e a b3 (List.append_inj' hab rfl).1

/-- The layers that are merged. -/
def cascadeLayers (system legacy xdg : Option ConfigLayer) : Option (Path × ConfigLayer) → List ConfigLayer
  | some (_, layer) => (if layer.noInherit then [] else
      system.toList ++ legacy.toList ++ xdg.toList) ++ [layer]
  | none => system.toList ++ legacy.toList ++ xdg.toList

/-- The layers of the cascade. -/
theorem loadCascading_spec {w : Places} {start : Path} {c : Config} {pr : Option Path}
    (h : loadCascading w start = some (c, pr)) :
    ∃ system legacy xdg project, tryLoadLayer w systemPath = some system ∧ loadLegacy w = some legacy ∧
      loadXdg w = some xdg ∧ discoverProject w start = some project ∧ pr = project.map (·.1) ∧
      c = (cascadeLayers system legacy xdg project).foldl (fun config layer => mergeOver layer config) {} := by
  simp only [loadCascading, Option.bind_eq_bind, Option.bind_eq_some_iff] at h
  obtain ⟨system, h1, legacy, h2, xdg, h3, project, h4, e⟩ := h
  cases e
  refine ⟨system, legacy, xdg, project, h1, h2, h3, h4, rfl, ?_⟩
  cases project <;> rfl

theorem foldl_ok (layers : List ConfigLayer) : ∀ c : Config, ConfigOk c → (∀ l ∈ layers, LayerOk l) →
    ConfigOk (layers.foldl (fun config layer => mergeOver layer config) c) := by
  induction layers with
  | nil => intro c h _; exact h
  | cons l ls ih =>
    intro c h hl
    exact ih _ (mergeOver_ok (hl l (by simp)) h) (fun x hx => hl x (by simp [hx]))

theorem loadCascading_ok {w : Places} {start : Path} {c : Config} {pr : Option Path}
    (h : loadCascading w start = some (c, pr)) : ConfigOk c := by
  obtain ⟨system, legacy, xdg, project, h1, h2, h3, h4, _, rfl⟩ := loadCascading_spec h
  apply foldl_ok _ _ default_ok
  have hlow : ∀ l ∈ system.toList ++ legacy.toList ++ xdg.toList, LayerOk l := by
    intro l hl
    simp only [List.mem_append] at hl
    rcases hl with (hl | hl) | hl
    · exact tryLoadLayer_ok h1 l hl
    · exact loadLegacy_ok h2 l hl
    · exact loadXdg_ok h3 l hl
  cases project with
  | none => exact hlow
  | some pl =>
    obtain ⟨p, l⟩ := pl
    have hp := ((discoverGo_spec w _ h4).1 p l rfl).1
    intro x hx
    simp only [cascadeLayers, List.mem_append, List.mem_singleton] at hx
    rcases hx with hx | rfl
    · split at hx
      · cases hx
      · exact hlow x (by simpa using hx)
    · exact hp

theorem lastSet_snoc {α : Type} (l : List (Option α)) (o : Option α) (d : α) :
    lastSet (l ++ [o]) d = o.getD (lastSet l d) := by
  rw [lastSet, List.reverse_append]
  cases o with
  | none => simp [lastSet]
  | some v => simp

theorem lastSet_filterMap {α β : Type} (get : α → Option β) (d : β) (ls : List (Option α)) :
    lastSet ((ls.filterMap id).map get) d = lastSet (ls.map (·.bind get)) d := by
  rcases List.eq_nil_or_concat ls with rfl | ⟨l, o, rfl⟩
  · rfl
  · have ih := lastSet_filterMap get d l
    rw [List.concat_eq_append, List.filterMap_append, List.map_append, List.map_append,
      List.map_singleton, lastSet_snoc, ← ih]
    cases o with
    | none => simp
    | some v => simp [lastSet_snoc]
termination_by ls.length
decreasing_by simp_all

theorem foldl_lastSet {α : Type} (get : ConfigLayer → Option α) (getC : Config → α)
    (h : ∀ l c, getC (mergeOver l c) = (get l).getD (getC c)) (layers : List ConfigLayer) :
    getC (layers.foldl (fun config layer => mergeOver layer config) {}) =
      lastSet (layers.map get) (getC {}) := by
  rcases List.eq_nil_or_concat layers with rfl | ⟨ls, l, rfl⟩
  · rfl
  · rw [List.concat_eq_append, List.foldl_append, List.map_append, List.map_singleton, lastSet_snoc,
      ← foldl_lastSet get getC h ls]
    exact h l _
termination_by layers.length
decreasing_by simp_all

/-- The layer of a file, if there is one. -/
theorem tryLoadLayer_eq {w : Places} {p : Path} {l : Option ConfigLayer} (h : tryLoadLayer w p = some l) :
    l = layerAt w (some p) := by
  rw [tryLoadLayer] at h
  rw [layerAt]
  cases hc : w.config p with
  | none => rw [hc] at h; cases h; simp [hc]
  | some t =>
    rw [hc] at h
    cases t with
    | none => simp [layerFromFile] at h
    | some t =>
      simp only [layerFromFile, Option.bind_some] at h
      simp only [hc, Option.bind_some]
      cases hr : readLayer t with
      | none => rw [hr] at h; cases h
      | some l' => rw [hr] at h; cases h; exact hr.symm

theorem tryLoadLayer_none {w : Places} {p : Path} : tryLoadLayer w p = none ↔ Broken w p := by
  rw [tryLoadLayer, Broken]
  cases hc : w.config p with
  | none => simp
  | some t => simp [layerFromFile]

theorem loadLegacy_eq {w : Places} {l : Option ConfigLayer} (h : loadLegacy w = some l) :
    l = layerAt w (w.home.map (· ++ [configFileName])) := by
  rw [loadLegacy] at h
  cases hh : w.home with
  | none => rw [hh] at h; cases h; rfl
  | some p => rw [hh] at h; exact tryLoadLayer_eq h

theorem loadXdg_eq {w : Places} {l : Option ConfigLayer} (h : loadXdg w = some l) :
    l = layerAt w (w.configDir.map (· ++ ["hongdown".toList, "config.toml".toList])) := by
  rw [loadXdg] at h
  cases hh : w.configDir with
  | none => rw [hh] at h; cases h; rfl
  | some p => rw [hh] at h; exact tryLoadLayer_eq h

/-- A failing search ends at a broken file. -/
theorem discoverGo_none (w : Places) : ∀ rev : List (List Char), discoverGo w rev = none ↔
    ∃ p, IsProjectFile w rev.reverse p ∧ Broken w p := by
  intro rev
  induction rev with
  | nil =>
    rw [discoverGo]
    constructor
    · intro h
      split at h
      · rename_i t ht
        rw [Option.map_eq_none_iff] at h
        refine ⟨[configFileName], ⟨[], [], rfl, rfl, by rw [ht]; rfl, ?_⟩, t, ht, h⟩
        intro b1 b2 e hne
        simp at e
        exact absurd e.1 hne
      · cases h
    · rintro ⟨p, ⟨dir, below, e, rfl, h1, h2⟩, t, ht, hb⟩
      simp at e
      obtain ⟨rfl, rfl⟩ := e
      rw [show w.config [configFileName] = some t from ht]
      show Option.map _ (layerFromFile t) = none
      rw [Option.map_eq_none_iff]
      exact hb
  | cons c cs ih =>
    rw [discoverGo]
    constructor
    · intro h
      split at h
      · rename_i t ht
        rw [Option.map_eq_none_iff] at h
        refine ⟨(c :: cs).reverse ++ [configFileName], ⟨(c :: cs).reverse, [], by simp, rfl, by rw [ht]; rfl, ?_⟩,
          t, ht, h⟩
        intro b1 b2 e hne
        simp at e
        exact absurd e.1 hne
      · rename_i ht
        obtain ⟨p, ⟨dir, below, k2, k3, k4, k5⟩, k6⟩ := ih.mp h
        refine ⟨p, ⟨dir, below ++ [c], by simp [k2], k3, k4, ?_⟩, k6⟩
        intro b1 b2 e hne
        rcases List.eq_nil_or_concat b2 with rfl | ⟨b3, x, rfl⟩
        · rw [List.append_nil] at e
          rw [← e]
          have : (c :: cs).reverse = dir ++ (below ++ [c]) := by simp [k2]
          rw [← this]
          exact ht
        · rw [List.concat_eq_append, ← List.append_assoc] at e
          exact k5 b1 b3 (List.append_inj' e rfl).1 hne
    · rintro ⟨p, ⟨dir, below, e, rfl, h1, h2⟩, t, ht, hb⟩
      rcases List.eq_nil_or_concat below with rfl | ⟨b3, x, rfl⟩
      · rw [List.append_nil] at e
        rw [e, show w.config (dir ++ [configFileName]) = some t from ht]
        show Option.map _ (layerFromFile t) = none
        rw [Option.map_eq_none_iff]
        exact hb
      · have hn := h2 (b3 ++ [x]) [] (by simp) (by simp)
        rw [List.concat_eq_append, List.reverse_cons, ← List.append_assoc] at e
        have e1 := (List.append_inj' e rfl).1
        have e2 := (List.append_inj' e rfl).2
        simp at e2
        subst e2
        have : w.config ((c :: cs).reverse ++ [configFileName]) = none := by
          rw [List.reverse_cons, e1]
          rw [← List.append_assoc dir] at hn
          exact hn
        rw [this]
        apply ih.mpr
        refine ⟨_, ⟨dir, b3, e1, rfl, h1, ?_⟩, t, ht, hb⟩
        intro b1 b2 e hne
        exact h2 b1 (b2 ++ [c]) (by simp [e]) hne

theorem isProjectFile_unique {w : Places} {start p q : Path} (hp : IsProjectFile w start p)
    (hq : IsProjectFile w start q) : p = q := by
  obtain ⟨d1, b1, e1, rfl, s1, n1⟩ := hp
  obtain ⟨d2, b2, e2, rfl, s2, n2⟩ := hq
  have e : d1 ++ b1 = d2 ++ b2 := by rw [← e1, ← e2]
  rcases List.append_eq_append_iff.mp e with ⟨a, rfl, rfl⟩ | ⟨a, rfl, rfl⟩
  · cases a with
    | nil => simp
    | cons x xs =>
      rw [n1 (x :: xs) b2 rfl (by simp)] at s2
      cases s2
  · cases a with
    | nil => simp
    | cons x xs =>
      rw [n2 (x :: xs) b1 rfl (by simp)] at s1
      cases s1

theorem replicate_space_inj {j k : Nat} {a b : Char} {s t : List Char} (ha : a ≠ ' ') (hb : b ≠ ' ')
    (e : List.replicate j ' ' ++ a :: s = List.replicate k ' ' ++ b :: t) : j = k ∧ a :: s = b :: t := by
  induction j generalizing k with
  | zero =>
    cases k with
    | zero => exact ⟨rfl, e⟩
    | succ k => simp [List.replicate_succ] at e; exact absurd e.1 ha
  | succ j ih =>
    cases k with
    | zero => simp [List.replicate_succ] at e; exact absurd e.1.symm hb
    | succ k =>
      simp only [List.replicate_succ, List.cons_append, List.cons.injEq, true_and] at e
      obtain ⟨h1, h2⟩ := ih e
      exact ⟨by rw [h1], h2⟩

theorem trim_mem {s : List Char} {c : Char} (h : c ∈ trim s) : c ∈ s := by
  obtain ⟨a, b, _, _, e⟩ := trim_append s
  rw [e]
  simp [h]

theorem trimmed_head {c : Char} {rest s : List Char} (h : trim s = s) (e : s = c :: rest) : isWs c = false := by
  apply trim_head s
  rw [h, e]
  rfl

theorem fieldD_eq {α : Type} (t : List (List Char × Toml)) (key : String) (read : Toml → Option α) (d : α) :
    fieldD t key read d = (fieldO t key read).map (·.getD d) := by
  rw [fieldD, fieldO]
  split
  · rfl
  · rename_i v _
    cases read v <;> rfl

theorem readConfig_eq (t : List (List Char × Toml)) :
    readConfig t = (readLayer t).map (mergeOver · {}) := by
  have h : ∀ (α : Type) (key : String) (read : Toml → Option α) (d : α),
    fieldD t key read d = (fieldO t key read).map (·.getD d) := fun _ _ _ _ => fieldD_eq t _ _ _
  simp only [readConfig, readLayer, Option.bind_eq_bind]
  cases fieldD t "no_inherit" Toml.bool? false with
  | none => rfl
  | some ni =>
  rw [h, h, h, h, h, h, h, h, h, h]
  cases fieldO t "line_width" (fun v => v.nat?.bind lineWidthNew) with
  | none => rfl
  | some a1 =>
  cases fieldO t "include" Toml.strs? with
  | none => rfl
  | some a2 =>
  cases fieldO t "exclude" Toml.strs? with
  | none => rfl
  | some a3 =>
  cases fieldO t "git_aware" Toml.bool? with
  | none => rfl
  | some a4 =>
  cases fieldO t "heading" readHeading with
  | none => rfl
  | some a5 =>
  cases fieldO t "unordered_list" readUnorderedList with
  | none => rfl
  | some a6 =>
  cases fieldO t "ordered_list" readOrderedList with
  | none => rfl
  | some a7 =>
  cases fieldO t "code_block" readCodeBlock with
  | none => rfl
  | some a8 =>
  cases fieldO t "thematic_break" readThematicBreak with
  | none => rfl
  | some a9 =>
  cases fieldO t "punctuation" readPunctuation with
  | none => rfl
  | some a10 => rfl

/-- What the search gives at the right file. -/
theorem discoverGo_at (w : Places) : ∀ (rev : List (List Char)) (p : Path), IsProjectFile w rev.reverse p →
    discoverGo w rev = ((w.config p).bind layerFromFile).map fun l => some (p, l) := by
  intro rev
  induction rev with
  | nil =>
    rintro p ⟨dir, below, e, rfl, h1, h2⟩
    simp at e
    obtain ⟨rfl, rfl⟩ := e
    rw [discoverGo]
    show (match w.config [configFileName] with | some t => _ | none => _) =
      ((w.config [configFileName]).bind layerFromFile).map fun l => some ([configFileName], l)
    have h1' : (w.config [configFileName]).isSome = true := h1
    revert h1'
    cases w.config [configFileName] with
    | none => intro h; cases h
    | some t => intro _; rfl
  | cons c cs ih =>
    rintro p ⟨dir, below, e, rfl, h1, h2⟩
    rw [discoverGo]
    rcases List.eq_nil_or_concat below with rfl | ⟨b3, x, rfl⟩
    · rw [List.append_nil] at e
      rw [e]
      show (match w.config (dir ++ [configFileName]) with | some t => _ | none => _) =
        ((w.config (dir ++ [configFileName])).bind layerFromFile).map fun l => some (dir ++ [configFileName], l)
      have h1' : (w.config (dir ++ [configFileName])).isSome = true := h1
      revert h1'
      cases w.config (dir ++ [configFileName]) with
      | none => intro h; cases h
      | some t => intro _; rfl
    · have hn := h2 (b3 ++ [x]) [] (by simp) (by simp)
      rw [List.concat_eq_append, List.reverse_cons, ← List.append_assoc] at e
      have e1 := (List.append_inj' e rfl).1
      have e2 := (List.append_inj' e rfl).2
      simp at e2
      subst e2
      have : w.config ((c :: cs).reverse ++ [configFileName]) = none := by
        rw [List.reverse_cons, e1]
        rw [← List.append_assoc dir] at hn
        exact hn
      rw [this]
      apply ih
      refine ⟨dir, b3, e1, rfl, h1, ?_⟩
      intro b1 b2 e hne
      exact h2 b1 (b2 ++ [c]) (by simp [e]) hne

end Hongdown
