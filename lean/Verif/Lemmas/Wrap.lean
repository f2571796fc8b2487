import Verif.Lemmas.Str
import Verif.Model.Wrap

/-!
# Wrapping is tokenizing followed by a greedy layout
-/

namespace Hongdown
open Model Spec

/-- A token with the spaces after it. -/
abbrev Tok := List Char × List Char

def tokText (ts : List Tok) : List Char := ts.flatMap fun p => p.1 ++ p.2

@[simp] theorem tokText_nil : tokText [] = [] := rfl
@[simp] theorem tokText_cons (t : Tok) (ts : List Tok) :
    tokText (t :: ts) = t.1 ++ t.2 ++ tokText ts := by simp [tokText]
@[simp] theorem tokText_append (a b : List Tok) : tokText (a ++ b) = tokText a ++ tokText b := by
  simp [tokText]

/-! ## Tokenizer -/

structure TokSt where
  toks : List Tok
  token : List Char
  spaces : List Char
  inTicks : Bool
  depth : Nat

def tokFlush (t : TokSt) : TokSt :=
  if t.token ≠ [] ∧ t.spaces ≠ [] then
    { t with toks := t.toks ++ [(t.token, t.spaces)], token := [], spaces := [] }
  else t

def tokStep (t : TokSt) (ch : Char) : TokSt :=
  if ch = '`' ∧ t.depth = 0 then
    if t.inTicks then { t with token := t.token ++ [ch], inTicks := false }
    else
      let t := tokFlush t
      { t with token := t.token ++ [ch], inTicks := true }
  else if t.inTicks then { t with token := t.token ++ [ch] }
  else if ch = '[' then
    let t := if t.depth = 0 then tokFlush t else t
    { t with token := t.token ++ [ch], depth := t.depth + 1 }
  else if ch = ']' ∧ t.depth > 0 then
    { t with token := t.token ++ [ch], depth := t.depth - 1 }
  else if t.depth > 0 then { t with token := t.token ++ [ch] }
  else if ch = ' ' then { t with spaces := t.spaces ++ [ch] }
  else
    let t := tokFlush t
    { t with token := t.token ++ [ch] }

def tokInit : TokSt := ⟨[], [], [], false, 0⟩

def tokFinal (t : TokSt) : List Tok :=
  if t.token ≠ [] then t.toks ++ [(t.token, [])] else t.toks

def tokenize (text : List Char) : List Tok := tokFinal (text.foldl tokStep tokInit)

def lay (w : List Char → Nat) (firstW : Nat) (pfx : List Char) (lw : Nat) (st : WrapSt)
    (ts : List Tok) : WrapSt :=
  ts.foldl (fun st p => addToken w firstW pfx lw p.1 p.2 st) st

def embed (b : WrapSt) (t : TokSt) : WrapSt :=
  { b with token := t.token, spaces := t.spaces, inTicks := t.inTicks, depth := t.depth }

theorem addToken_embed (w firstW pfx lw tok sp b t) :
    addToken w firstW pfx lw tok sp (embed b t) = embed (addToken w firstW pfx lw tok sp b) t := by
  unfold addToken embed
  simp only []
  split <;> (try split) <;> (try split) <;> simp_all

theorem lay_append (w firstW pfx lw st a b) :
    lay w firstW pfx lw st (a ++ b) = lay w firstW pfx lw (lay w firstW pfx lw st a) b := by
  simp [lay]

theorem flush_sim (w firstW pfx lw) (i : WrapSt) (t : TokSt) :
    flushToken w firstW pfx lw (embed (lay w firstW pfx lw i t.toks) t) =
      embed (lay w firstW pfx lw i (tokFlush t).toks) (tokFlush t) := by
  unfold flushToken tokFlush
  by_cases h : t.token ≠ [] ∧ t.spaces ≠ []
  · have h' : (embed (lay w firstW pfx lw i t.toks) t).token ≠ [] ∧
      (embed (lay w firstW pfx lw i t.toks) t).spaces ≠ [] := h
    rw [if_pos h, if_pos h', addToken_embed, lay_append]
    rfl
  · have h' : ¬ ((embed (lay w firstW pfx lw i t.toks) t).token ≠ [] ∧
      (embed (lay w firstW pfx lw i t.toks) t).spaces ≠ []) := h
    rw [if_neg h, if_neg h']

theorem step_sim (w firstW pfx lw) (i : WrapSt) (t : TokSt) (ch : Char) :
    wrapStep w firstW pfx lw (embed (lay w firstW pfx lw i t.toks) t) ch =
      embed (lay w firstW pfx lw i (tokStep t ch).toks) (tokStep t ch) := by
  unfold wrapStep tokStep
  have e1 : (embed (lay w firstW pfx lw i t.toks) t).depth = t.depth := rfl
  have e2 : (embed (lay w firstW pfx lw i t.toks) t).inTicks = t.inTicks := rfl
  have hf := flush_sim w firstW pfx lw i t
  simp only [e1, e2, hf]
  split
  · split <;> rfl
  · split
    · rfl
    · split
      · by_cases hd : t.depth = 0
        · simp only [if_pos hd]; rfl
        · simp only [if_neg hd]; rfl
      · split
        · rfl
        · split
          · rfl
          · split <;> rfl

theorem fold_sim (w firstW pfx lw) (i : WrapSt) (text : List Char) : ∀ t : TokSt,
    text.foldl (wrapStep w firstW pfx lw) (embed (lay w firstW pfx lw i t.toks) t) =
      embed (lay w firstW pfx lw i (text.foldl tokStep t).toks) (text.foldl tokStep t) := by
  induction text with
  | nil => intro t; rfl
  | cons c cs ih => intro t; rw [List.foldl_cons, List.foldl_cons, step_sim, ih]

theorem wrapSingle_eq_lay (w : List Char → Nat) (text fp pfx : List Char) (lw : Nat) :
    wrapSingle w text fp pfx lw =
      (lay w (w fp) pfx lw (wrapInit fp) (tokenize text)).result ++
        trimEnd (lay w (w fp) pfx lw (wrapInit fp) (tokenize text)).line := by
  unfold wrapSingle tokenize tokFinal
  have h := fold_sim w (w fp) pfx lw (wrapInit fp) text tokInit
  have h0 : embed (lay w (w fp) pfx lw (wrapInit fp) tokInit.toks) tokInit = wrapInit fp := rfl
  rw [h0] at h
  simp only [h]
  generalize text.foldl tokStep tokInit = t
  have e : (embed (lay w (w fp) pfx lw (wrapInit fp) t.toks) t).token = t.token := rfl
  rw [e]
  by_cases ht : t.token ≠ []
  · rw [if_pos ht, if_pos ht, addToken_embed, lay_append]; rfl
  · rw [if_neg ht, if_neg ht]; rfl

/-! ## Layout in groups -/

/-- The raw lines of grouped tokens. -/
def rawLines (fp pfx : List Char) : List (List Tok) → List (List Char)
  | [] => []
  | g :: gs => (fp ++ tokText g) :: gs.map fun g => pfx ++ tokText g

def curPfx (fp pfx : List Char) (done : List (List Tok)) : List Char :=
  if done = [] then fp else pfx

theorem rawLines_concat (fp pfx : List Char) (done : List (List Tok)) (cur : List Tok) :
    rawLines fp pfx (done ++ [cur]) = rawLines fp pfx done ++ [curPfx fp pfx done ++ tokText cur] := by
  cases done <;> simp [rawLines, curPfx]

theorem rawLines_ne_nil {fp pfx : List Char} {gs : List (List Tok)} (h : gs ≠ []) :
    rawLines fp pfx gs ≠ [] := by
  cases gs with
  | nil => exact absurd rfl h
  | cons _ _ => simp [rawLines]

/-- Finished lines and the tokens of the current one. -/
abbrev Grp := List (List Tok) × List Tok

def grpLine (fp pfx : List Char) (g : Grp) : List Char := curPfx fp pfx g.1 ++ tokText g.2

/-- A token is added to the current line, or begins a new one. -/
def grpStep (w : List Char → Nat) (fp pfx : List Char) (lw : Nat) (g : Grp) (t : Tok) : Grp :=
  if w (grpLine fp pfx g) = w (curPfx fp pfx g.1) ∨ w (grpLine fp pfx g) + w t.1 + t.2.length ≤ lw
  then (g.1, g.2 ++ [t])
  else (g.1 ++ [g.2], [t])

def ofGrp (fp pfx : List Char) (g : Grp) : WrapSt :=
  { wrapInit fp with
    result := (rawLines fp pfx g.1).flatMap fun l => trimEnd l ++ ['\n']
    line := grpLine fp pfx g
    isFirst := decide (g.1 = []) }

theorem addToken_ofGrp (w fp pfx lw) (g : Grp) (t : Tok) :
    addToken w (w fp) pfx lw t.1 t.2 (ofGrp fp pfx g) = ofGrp fp pfx (grpStep w fp pfx lw g t) := by
  unfold addToken grpStep
  have e1 : (if (ofGrp fp pfx g).isFirst = true then w fp else w pfx) = w (curPfx fp pfx g.1) := by
    unfold curPfx ofGrp
    by_cases h : g.1 = [] <;> simp [h]
  have e2 : (ofGrp fp pfx g).line = grpLine fp pfx g := rfl
  simp only [e1, e2]
  by_cases h1 : w (grpLine fp pfx g) = w (curPfx fp pfx g.1)
  · rw [if_pos h1, if_pos (Or.inl h1)]
    simp [ofGrp, grpLine]
  · rw [if_neg h1]
    by_cases h2 : w (grpLine fp pfx g) + w t.1 + t.2.length ≤ lw
    · rw [if_pos h2, if_pos (Or.inr h2)]
      simp [ofGrp, grpLine]
    · rw [if_neg h2, if_neg (by simp [h1, h2])]
      simp [ofGrp, grpLine, rawLines_concat, curPfx]

def grpFold (w : List Char → Nat) (fp pfx : List Char) (lw : Nat) (g : Grp) (ts : List Tok) : Grp :=
  ts.foldl (grpStep w fp pfx lw) g

theorem lay_ofGrp (w fp pfx lw) (ts : List Tok) : ∀ g : Grp,
    lay w (w fp) pfx lw (ofGrp fp pfx g) ts = ofGrp fp pfx (grpFold w fp pfx lw g ts) := by
  induction ts with
  | nil => intro g; rfl
  | cons t ts ih =>
    intro g
    show lay w (w fp) pfx lw (addToken w (w fp) pfx lw t.1 t.2 (ofGrp fp pfx g)) ts = _
    rw [addToken_ofGrp, ih]; rfl

/-- The tokens of a text grouped into lines. -/
def groups (w : List Char → Nat) (fp pfx : List Char) (lw : Nat) (ts : List Tok) : List (List Tok) :=
  let g := grpFold w fp pfx lw ([], []) ts
  g.1 ++ [g.2]

theorem groups_ne_nil (w fp pfx lw ts) : groups w fp pfx lw ts ≠ [] := by simp [groups]

theorem joinWith_nl_concat (ls : List (List Char)) (l : List Char) :
    joinWith ['\n'] (ls ++ [l]) = (ls.flatMap fun l => l ++ ['\n']) ++ l := by
  induction ls with
  | nil => simp [joinWith]
  | cons a r ih =>
    rw [List.cons_append, joinWith_cons _ _ (by simp), ih]; simp

theorem wrapSingle_eq (w : List Char → Nat) (text fp pfx : List Char) (lw : Nat) :
    wrapSingle w text fp pfx lw =
      joinWith ['\n'] ((rawLines fp pfx (groups w fp pfx lw (tokenize text))).map trimEnd) := by
  rw [wrapSingle_eq_lay]
  have h0 : wrapInit fp = ofGrp fp pfx ([], []) := by simp [wrapInit, ofGrp, grpLine, curPfx, rawLines]
  rw [h0, lay_ofGrp]
  unfold groups
  simp only []
  rw [rawLines_concat, List.map_append, List.map_cons, List.map_nil, joinWith_nl_concat]
  simp [ofGrp, grpLine, List.flatMap_map]

theorem grpStep_flatten (w fp pfx lw) (g : Grp) (t : Tok) :
    (grpStep w fp pfx lw g t).1.flatten ++ (grpStep w fp pfx lw g t).2 = g.1.flatten ++ g.2 ++ [t] := by
  unfold grpStep
  split <;> simp

theorem groups_flatten (w fp pfx lw ts) : (groups w fp pfx lw ts).flatten = ts := by
  have : ∀ g : Grp, (grpFold w fp pfx lw g ts).1.flatten ++ (grpFold w fp pfx lw g ts).2 =
      g.1.flatten ++ g.2 ++ ts := by
    induction ts with
    | nil => intro g; simp [grpFold]
    | cons t ts ih =>
      intro g
      show (grpFold w fp pfx lw (grpStep w fp pfx lw g t) ts).1.flatten ++
        (grpFold w fp pfx lw (grpStep w fp pfx lw g t) ts).2 = _
      rw [ih, grpStep_flatten]; simp
  have := this ([], [])
  simp [groups] at this ⊢; exact this

/-! ## Facts about the tokens -/

/-- The tokenizer's invariant: no token is empty, all collected spaces are spaces. -/
structure TokOk (t : TokSt) : Prop where
  tok_ne : ∀ p ∈ t.toks, p.1 ≠ []
  sp_ne : ∀ p ∈ t.toks, p.2 ≠ []
  sp : ∀ p ∈ t.toks, ∀ c ∈ p.2, c = ' '
  cur : ∀ c ∈ t.spaces, c = ' '

theorem tokFlush_ok {t : TokSt} (h : TokOk t) : TokOk (tokFlush t) := by
  unfold tokFlush
  split
  · next hc =>
    refine ⟨?_, ?_, ?_, by simp⟩
    · intro p hp
      rcases List.mem_append.mp hp with hp | hp
      · exact h.tok_ne p hp
      · simp at hp; subst hp; exact hc.1
    · intro p hp
      rcases List.mem_append.mp hp with hp | hp
      · exact h.sp_ne p hp
      · simp at hp; subst hp; exact hc.2
    · intro p hp
      rcases List.mem_append.mp hp with hp | hp
      · exact h.sp p hp
      · simp at hp; subst hp; exact h.cur
  · exact h

theorem tokOk_of {t : TokSt} (h : TokOk t) (a b c) : TokOk { t with token := a, inTicks := b, depth := c } :=
  ⟨h.tok_ne, h.sp_ne, h.sp, h.cur⟩

theorem tokStep_ok {t : TokSt} (h : TokOk t) (ch : Char) : TokOk (tokStep t ch) := by
  unfold tokStep
  have hf := tokFlush_ok h
  split
  · split
    · exact tokOk_of h _ _ _
    · exact tokOk_of hf _ _ _
  · split
    · exact tokOk_of h _ _ _
    · split
      · simp only []
        split
        · exact tokOk_of hf _ _ _
        · exact tokOk_of h _ _ _
      · split
        · exact tokOk_of h _ _ _
        · split
          · exact tokOk_of h _ _ _
          · split
            · next hc =>
              refine ⟨h.tok_ne, h.sp_ne, h.sp, ?_⟩
              intro c hc'
              rcases List.mem_append.mp hc' with h1 | h1
              · exact h.cur c h1
              · simp at h1; rw [h1, hc]
            · exact tokOk_of hf _ _ _

theorem fold_tok {P : TokSt → Prop} (hs : ∀ t ch, P t → P (tokStep t ch)) (text : List Char) :
    ∀ t, P t → P (text.foldl tokStep t) := by
  induction text with
  | nil => intro t h; exact h
  | cons c cs ih => intro t h; exact ih _ (hs t c h)

theorem tokOk_fold (text : List Char) : TokOk (text.foldl tokStep tokInit) :=
  fold_tok (P := TokOk) (fun _ ch h => tokStep_ok h ch) text _ ⟨by simp [tokInit], by simp [tokInit], by simp [tokInit], by simp [tokInit]⟩

/-- All tokens are nonempty, what follows them are spaces, at least one except after the last. -/
theorem tokenize_ok (text : List Char) :
    (∀ p ∈ tokenize text, p.1 ≠ []) ∧ (∀ p ∈ tokenize text, ∀ c ∈ p.2, c = ' ') ∧
    (∀ p ∈ (tokenize text).dropLast, p.2 ≠ []) := by
  have h := tokOk_fold text
  unfold tokenize tokFinal
  generalize text.foldl tokStep tokInit = t at h
  split
  · next hc =>
    refine ⟨?_, ?_, ?_⟩
    · intro p hp
      rcases List.mem_append.mp hp with hp | hp
      · exact h.tok_ne p hp
      · simp at hp; subst hp; exact hc
    · intro p hp
      rcases List.mem_append.mp hp with hp | hp
      · exact h.sp p hp
      · simp at hp; subst hp; simp
    · intro p hp
      rw [List.dropLast_concat] at hp
      exact h.sp_ne p hp
  · exact ⟨h.tok_ne, h.sp, fun p hp => h.sp_ne p (List.dropLast_subset _ hp)⟩

/-- The visible characters of the tokens are those of the text. -/
theorem visible_tokenize (text : List Char) : visible (tokText (tokenize text)) = visible text := by
  have key : ∀ (text : List Char) (t : TokSt), TokOk t →
      visible (tokText (text.foldl tokStep t).toks ++ (text.foldl tokStep t).token) =
        visible (tokText t.toks ++ t.token) ++ visible text := by
    intro text
    induction text with
    | nil => intro t _; simp [visible]
    | cons c cs ih =>
      intro t ht
      have hstep : visible (tokText (tokStep t c).toks ++ (tokStep t c).token) =
          visible (tokText t.toks ++ t.token) ++ visible [c] := by
        have hsp : visible t.spaces = [] :=
          visible_ws (fun d hd => by rw [ht.cur d hd]; decide)
        have hfl : visible (tokText (tokFlush t).toks ++ (tokFlush t).token) =
            visible (tokText t.toks ++ t.token) := by
          unfold tokFlush
          split
          · simp [visible_append, hsp]
          · rfl
        have add : ∀ a b d : List Char, visible a = visible b →
            visible (a ++ d) = visible b ++ visible d := by
          intro a b d h; rw [visible_append, h]
        unfold tokStep
        split
        · split
          · simp only [← List.append_assoc]; exact add _ _ _ rfl
          · simp only [← List.append_assoc]; exact add _ _ _ hfl
        · split
          · simp only [← List.append_assoc]; exact add _ _ _ rfl
          · split
            · simp only [← List.append_assoc]
              apply add
              split
              · exact hfl
              · rfl
            · split
              · simp only [← List.append_assoc]; exact add _ _ _ rfl
              · split
                · simp only [← List.append_assoc]; exact add _ _ _ rfl
                · split
                  · next hc =>
                    have : visible [c] = [] := visible_ws (fun d hd => by simp at hd; rw [hd, hc]; decide)
                    rw [this, List.append_nil]
                  · simp only [← List.append_assoc]; exact add _ _ _ hfl
      rw [List.foldl_cons, ih _ (tokStep_ok ht c), hstep, List.append_assoc]
      congr 1
      rw [← visible_append]; rfl
  have h := key text tokInit ⟨by simp [tokInit], by simp [tokInit], by simp [tokInit], by simp [tokInit]⟩
  unfold tokenize tokFinal
  generalize text.foldl tokStep tokInit = t at h ⊢
  have e : visible (tokText tokInit.toks ++ tokInit.token) = [] := rfl
  rw [e, List.nil_append] at h
  split
  · simpa using h
  · next hc =>
    have hc : t.token = [] := by simpa using hc
    rw [hc, List.append_nil] at h; exact h

/-! ### Tokens are unbreakable -/

theorem endSt_append (x y : List Char) : ∀ b d,
    endSt b d (x ++ y) = endSt (endSt b d x).1 (endSt b d x).2 y := by
  induction x with
  | nil => intro b d; rfl
  | cons c cs ih =>
    intro b d
    rw [List.cons_append, endSt, endSt]
    split <;> (try split) <;> (try split) <;> (try split) <;> exact ih _ _

theorem bare_append (x y : List Char) : ∀ b d,
    bareGo b d (x ++ y) = bareGo b d x ++ bareGo (endSt b d x).1 (endSt b d x).2 y := by
  induction x with
  | nil => intro b d; rfl
  | cons c cs ih =>
    intro b d
    rw [List.cons_append, endSt, bareGo, bareGo]
    split
    · exact ih _ _
    · split
      · exact ih _ _
      · split
        · exact ih _ _
        · split
          · exact ih _ _
          · split
            · exact ih _ _
            · rw [List.cons_append, ih]

structure TokBare (t : TokSt) : Prop where
  fin : endSt false 0 t.token = (t.inTicks, t.depth)
  bare : ' ' ∉ bareGo false 0 t.token
  toks : ∀ p ∈ t.toks, endSt false 0 p.1 = (false, 0) ∧ ' ' ∉ bareGo false 0 p.1

theorem tokFlush_bare {t : TokSt} (h : TokBare t) (h1 : t.inTicks = false) (h2 : t.depth = 0) :
    TokBare (tokFlush t) := by
  unfold tokFlush
  split
  · refine ⟨by simp [endSt, h1, h2], by simp [bareGo], ?_⟩
    intro p hp
    rcases List.mem_append.mp hp with hp | hp
    · exact h.toks p hp
    · simp at hp; subst hp; exact ⟨by rw [h.fin, h1, h2], h.bare⟩
  · exact h

theorem tokFlush_mode (t : TokSt) : (tokFlush t).inTicks = t.inTicks ∧ (tokFlush t).depth = t.depth := by
  unfold tokFlush; split <;> exact ⟨rfl, rfl⟩

theorem tokBare_push {t : TokSt} (h : TokBare t) (c : Char) (b : Bool) (d : Nat)
    (h1 : endSt t.inTicks t.depth [c] = (b, d)) (h2 : ' ' ∉ bareGo t.inTicks t.depth [c]) :
    TokBare { t with token := t.token ++ [c], inTicks := b, depth := d } := by
  refine ⟨?_, ?_, h.toks⟩
  · show endSt false 0 (t.token ++ [c]) = (b, d)
    rw [endSt_append, h.fin]; exact h1
  · show ' ' ∉ bareGo false 0 (t.token ++ [c])
    rw [bare_append, h.fin, List.mem_append, not_or]
    exact ⟨h.bare, h2⟩

theorem tokStep_bare (t : TokSt) (ch : Char) (h : TokBare t) : TokBare (tokStep t ch) := by
  unfold tokStep
  split
  · next hc =>
    split
    · next hb =>
      exact tokBare_push h ch false t.depth (by simp [endSt, hc, hb]) (by simp [bareGo, hc])
    · next hb =>
      have hb : t.inTicks = false := by simpa using hb
      have hf := tokFlush_bare h hb hc.2
      have hm := tokFlush_mode t
      exact tokBare_push hf ch true _ (by simp [endSt, hc, hb, hm]) (by simp [bareGo, hc, hm])
  · next hc =>
    split
    · next hb =>
      exact tokBare_push h ch t.inTicks t.depth (by simp [endSt, hc, hb]) (by simp [bareGo, hc, hb])
    · next hb =>
      have hb : t.inTicks = false := by simpa using hb
      split
      · next ho =>
        have hne : ¬ (ch = '`' ∧ (if t.depth = 0 then tokFlush t else t).depth = 0) := by
          intro hh; rw [ho] at hh; exact absurd hh.1 (by decide)
        have hX : TokBare (if t.depth = 0 then tokFlush t else t) ∧
            (if t.depth = 0 then tokFlush t else t).inTicks = false ∧
            (if t.depth = 0 then tokFlush t else t).depth = t.depth := by
          by_cases hd : t.depth = 0
          · rw [if_pos hd]
            exact ⟨tokFlush_bare h hb hd, by rw [(tokFlush_mode t).1, hb], (tokFlush_mode t).2⟩
          · rw [if_neg hd]; exact ⟨h, hb, rfl⟩
        simp only []
        generalize (if t.depth = 0 then tokFlush t else t) = t' at hX hne
        obtain ⟨k1, k2, k3⟩ := hX
        refine tokBare_push k1 ch t'.inTicks _ ?_ ?_
        · subst ho; simp [endSt, k2]
        · subst ho; simp [bareGo, k2]
      · next ho =>
        split
        · next hcl =>
          refine tokBare_push h ch t.inTicks _ ?_ ?_
          · simp only [endSt]
            rw [if_neg hc, if_neg (by simp [hb]), if_neg ho, if_pos hcl]
          · simp only [bareGo]
            rw [if_neg hc, if_neg (by simp [hb]), if_neg ho, if_pos hcl]; simp
        · next hcl =>
          split
          · next hd =>
            refine tokBare_push h ch t.inTicks _ ?_ ?_
            · simp only [endSt]
              rw [if_neg hc, if_neg (by simp [hb]), if_neg ho, if_neg hcl]
            · simp only [bareGo]
              rw [if_neg hc, if_neg (by simp [hb]), if_neg ho, if_neg hcl, if_pos hd]; simp
          · next hd =>
            have hd0 : t.depth = 0 := by omega
            split
            · exact ⟨h.fin, h.bare, h.toks⟩
            · next hs =>
              have hf := tokFlush_bare h hb hd0
              have hm := tokFlush_mode t
              refine tokBare_push hf ch _ _ ?_ ?_
              · simp only [endSt]
                rw [hm.1, hm.2, if_neg hc, if_neg (by simp [hb]), if_neg ho, if_neg hcl]
              · simp only [bareGo]
                rw [hm.1, hm.2, if_neg hc, if_neg (by simp [hb]), if_neg ho, if_neg hcl, if_neg hd]
                simpa using fun h => hs h.symm

theorem tokBare_fold (text : List Char) : TokBare (text.foldl tokStep tokInit) :=
  fold_tok (P := TokBare) tokStep_bare text _ ⟨rfl, by simp [tokInit, bareGo], by simp [tokInit]⟩

theorem tokenize_bare (text : List Char) :
    (∀ p ∈ tokenize text, ' ' ∉ bareGo false 0 p.1) ∧
    (∀ p ∈ (tokenize text).dropLast, endSt false 0 p.1 = (false, 0)) := by
  have h := tokBare_fold text
  unfold tokenize tokFinal
  generalize text.foldl tokStep tokInit = t at h
  split
  · refine ⟨?_, ?_⟩
    · intro p hp
      rcases List.mem_append.mp hp with hp | hp
      · exact (h.toks p hp).2
      · simp at hp; subst hp; exact h.bare
    · intro p hp
      rw [List.dropLast_concat] at hp
      exact (h.toks p hp).1
  · exact ⟨fun p hp => (h.toks p hp).2, fun p hp => (h.toks p (List.dropLast_subset _ hp)).1⟩

/-! ### Tokens make up the text -/

/-- What the tokenizer has read. -/
def tokRead (t : TokSt) : List Char := tokText t.toks ++ t.token ++ t.spaces

structure TokFull (t : TokSt) : Prop where
  ne : t.token ≠ []
  reg : (t.inTicks = true ∨ t.depth > 0) → t.spaces = []

theorem tokFlush_read (t : TokSt) : tokRead (tokFlush t) = tokRead t := by
  unfold tokFlush tokRead
  split <;> simp

theorem tokFlush_spaces {t : TokSt} (h : t.token ≠ []) : (tokFlush t).spaces = [] := by
  unfold tokFlush
  split
  · rfl
  · next hc => simpa [h] using hc

theorem tokStep_read {t : TokSt} (h : TokFull t) (c : Char) :
    TokFull (tokStep t c) ∧ tokRead (tokStep t c) = tokRead t ++ [c] := by
  have push : ∀ (t' : TokSt) (b : Bool) (d : Nat), tokRead t' = tokRead t → t'.spaces = [] →
      TokFull { t' with token := t'.token ++ [c], inTicks := b, depth := d } ∧
      tokRead { t' with token := t'.token ++ [c], inTicks := b, depth := d } = tokRead t ++ [c] := by
    intro t' b d hr hs
    refine ⟨⟨by simp, fun _ => hs⟩, ?_⟩
    rw [← hr]; simp [tokRead, hs]
  have hfr := tokFlush_read t
  have hfs := tokFlush_spaces h.ne
  unfold tokStep
  split
  · next hc =>
    split
    · next hb => exact push t _ _ rfl (h.reg (Or.inl hb))
    · exact push _ _ _ hfr hfs
  · split
    · next hb => exact push t _ _ rfl (h.reg (Or.inl hb))
    · split
      · simp only []
        by_cases hd : t.depth = 0
        · rw [if_pos hd]; exact push _ _ _ hfr hfs
        · rw [if_neg hd]; exact push t _ _ rfl (h.reg (Or.inr (by omega)))
      · split
        · next hcl => exact push t _ _ rfl (h.reg (Or.inr hcl.2))
        · split
          · next hd => exact push t _ _ rfl (h.reg (Or.inr hd))
          · next hb _ _ hd =>
            split
            · refine ⟨⟨h.ne, ?_⟩, by simp [tokRead]⟩
              intro hh
              rcases hh with hh | hh
              · exact absurd hh hb
              · exact absurd hh hd
            · exact push _ _ _ hfr hfs

theorem fold_read (text : List Char) : ∀ t, TokFull t →
    tokRead (text.foldl tokStep t) = tokRead t ++ text ∧ TokFull (text.foldl tokStep t) := by
  induction text with
  | nil => intro t h; simpa using h
  | cons c cs ih =>
    intro t h
    have h1 := tokStep_read h c
    have h2 := ih _ h1.1
    rw [List.foldl_cons, h2.1, h1.2]
    exact ⟨by simp, h2.2⟩

theorem tokStep_init_full {c : Char} (h : c ≠ ' ') :
    TokFull (tokStep tokInit c) ∧ tokRead (tokStep tokInit c) = [c] := by
  by_cases h1 : c = '`'
  · subst h1; exact ⟨⟨by decide, by decide⟩, rfl⟩
  · by_cases h2 : c = '['
    · subst h2; exact ⟨⟨by decide, by decide⟩, rfl⟩
    · have : tokStep tokInit c = ⟨[], [c], [], false, 0⟩ := by
        simp [tokStep, tokInit, h1, h2, h, tokFlush]
      rw [this]
      exact ⟨⟨by simp, by simp⟩, rfl⟩

/-- A text not beginning with a space is its tokens, up to spaces at the end. -/
theorem tokenize_text {text : List Char} (h : text.head? ≠ some ' ') :
    ∃ sp, (∀ c ∈ sp, c = ' ') ∧ text = tokText (tokenize text) ++ sp := by
  cases text with
  | nil => exact ⟨[], by simp, rfl⟩
  | cons c cs =>
    have hc : c ≠ ' ' := by simpa using h
    have h1 := tokStep_init_full hc
    have h2 := fold_read cs _ h1.1
    have h3 := tokOk_fold (c :: cs)
    unfold tokenize
    rw [List.foldl_cons] at h3 ⊢
    generalize cs.foldl tokStep (tokStep tokInit c) = t at *
    refine ⟨t.spaces, h3.cur, ?_⟩
    rw [tokFinal, if_pos h2.2.ne]
    rw [h1.2] at h2
    rw [List.singleton_append] at h2
    rw [← h2.1]; simp [tokRead]

/-! ### Reading tokens again -/

theorem tokStep_push {toks : List Tok} {tk : List Char} {b : Bool} {d : Nat} {c : Char}
    (h : ' ' ∉ bareGo b d [c]) :
    tokStep ⟨toks, tk, [], b, d⟩ c = ⟨toks, tk ++ [c], [], (endSt b d [c]).1, (endSt b d [c]).2⟩ := by
  have hf : tokFlush ⟨toks, tk, [], b, d⟩ = ⟨toks, tk, [], b, d⟩ := by simp [tokFlush]
  unfold tokStep
  simp only [hf, endSt, bareGo] at h ⊢
  split
  · next hc =>
    cases b <;> simp
  · next hc =>
    rw [if_neg hc] at h
    split
    · rfl
    · next hb =>
      rw [if_neg hb] at h
      split
      · split <;> rfl
      · next ho =>
        rw [if_neg ho] at h
        split
        · rfl
        · next hcl =>
          rw [if_neg hcl] at h
          split
          · rfl
          · next hd =>
            rw [if_neg hd] at h
            split
            · next hs => subst hs; simp at h
            · rfl

theorem fold_push (cs : List Char) : ∀ (toks : List Tok) (tk : List Char) (b : Bool) (d : Nat),
    ' ' ∉ bareGo b d cs →
    cs.foldl tokStep ⟨toks, tk, [], b, d⟩ = ⟨toks, tk ++ cs, [], (endSt b d cs).1, (endSt b d cs).2⟩ := by
  induction cs with
  | nil => intro toks tk b d _; simp [endSt]
  | cons c cs ih =>
    intro toks tk b d h
    have e : c :: cs = [c] ++ cs := rfl
    rw [e, bare_append, List.mem_append, not_or] at h
    rw [List.foldl_cons, tokStep_push h.1, ih _ _ _ _ h.2, e, endSt_append]
    simp

theorem fold_spaces (sp : List Char) (h : ∀ c ∈ sp, c = ' ') : ∀ (toks : List Tok) (tk s : List Char),
    sp.foldl tokStep ⟨toks, tk, s, false, 0⟩ = ⟨toks, tk, s ++ sp, false, 0⟩ := by
  induction sp with
  | nil => intro toks tk s; simp
  | cons c cs ih =>
    intro toks tk s
    have hc := h c (by simp)
    subst hc
    rw [List.foldl_cons]
    have : tokStep ⟨toks, tk, s, false, 0⟩ ' ' = ⟨toks, tk, s ++ [' '], false, 0⟩ := by
      simp [tokStep]
    rw [this, ih (fun d hd => h d (by simp [hd]))]
    simp

theorem tokStep_boundary {toks : List Tok} {tk sp : List Char} {c : Char} (h1 : tk ≠ []) (h2 : sp ≠ [])
    (hc : c ≠ ' ') :
    tokStep ⟨toks, tk, sp, false, 0⟩ c = tokStep ⟨toks ++ [(tk, sp)], [], [], false, 0⟩ c := by
  have hf : tokFlush ⟨toks, tk, sp, false, 0⟩ = ⟨toks ++ [(tk, sp)], [], [], false, 0⟩ := by
    simp [tokFlush, h1, h2]
  have hf2 : tokFlush ⟨toks ++ [(tk, sp)], [], [], false, 0⟩ = ⟨toks ++ [(tk, sp)], [], [], false, 0⟩ := by
    simp [tokFlush]
  unfold tokStep
  simp only [hf, hf2, hc]
  by_cases h3 : c = '`'
  · simp [h3]
  · by_cases h4 : c = '['
    · simp [h4]
    · simp [h3, h4]

/-- The token lists which the tokenizer produces. -/
structure TokList (ts : List Tok) : Prop where
  ne : ∀ p ∈ ts, p.1 ≠ []
  bare : ∀ p ∈ ts, ' ' ∉ bareGo false 0 p.1
  fin : ∀ p ∈ ts.dropLast, endSt false 0 p.1 = (false, 0)
  sp : ∀ p ∈ ts.dropLast, p.2 ≠ []
  spaces : ∀ p ∈ ts, ∀ c ∈ p.2, c = ' '

theorem tokList_tokenize (text : List Char) : TokList (tokenize text) :=
  ⟨(tokenize_ok text).1, (tokenize_bare text).1, (tokenize_bare text).2, (tokenize_ok text).2.2,
    (tokenize_ok text).2.1⟩

theorem mem_dropLast_cons {α} {p t : α} {ts : List α} (h : p ∈ ts.dropLast) : p ∈ (t :: ts).dropLast := by
  cases ts with
  | nil => simp at h
  | cons a r => rw [List.dropLast_cons_of_ne_nil (by simp)]; exact List.mem_cons_of_mem _ h

theorem TokList.tail {t : Tok} {ts : List Tok} (h : TokList (t :: ts)) : TokList ts :=
  ⟨fun p hp => h.ne p (by simp [hp]), fun p hp => h.bare p (by simp [hp]),
    fun p hp => h.fin p (mem_dropLast_cons hp), fun p hp => h.sp p (mem_dropLast_cons hp),
    fun p hp => h.spaces p (by simp [hp])⟩

theorem TokList.drop {ts : List Tok} (h : TokList ts) (n : Nat) : TokList (ts.drop n) := by
  induction n generalizing ts with
  | zero => exact h
  | succ n ih =>
    cases ts with
    | nil => exact h
    | cons t ts => exact ih h.tail

/-- A token list whose last token is not followed by spaces is read again. -/
theorem tokFinal_fold : ∀ (ts : List Tok) (toks : List Tok), TokList ts →
    (∀ p ∈ ts.getLast?, p.2 = []) →
    tokFinal ((tokText ts).foldl tokStep ⟨toks, [], [], false, 0⟩) = toks ++ ts := by
  intro ts
  induction ts with
  | nil => intro toks _ _; simp [tokFinal]
  | cons t ts ih =>
    intro toks h hl
    have hne := h.ne t (by simp)
    rw [tokText_cons, List.foldl_append, List.foldl_append, fold_push _ _ _ _ _ (h.bare t (by simp)),
      List.nil_append]
    cases ts with
    | nil =>
      have hs : t.2 = [] := hl t (by simp)
      rw [hs]
      rw [List.foldl_nil, tokText_nil, List.foldl_nil]
      rw [show tokFinal ⟨toks, t.1, [], (endSt false 0 t.1).1, (endSt false 0 t.1).2⟩ =
        toks ++ [(t.1, [])] from if_pos hne]
      have : t = (t.1, []) := by rw [← hs]
      rw [← this]
    | cons u us =>
      have hfin := h.fin t (by simp)
      have hsp := h.sp t (by simp)
      rw [hfin]
      simp only []
      rw [fold_spaces _ (h.spaces t (by simp)), List.nil_append]
      have ih' := ih (toks ++ [t]) h.tail (by intro p hp; exact hl p (by rw [List.getLast?_cons_cons]; exact hp))
      have hu := h.ne u (by simp)
      have hub := h.bare u (by simp)
      rw [List.append_assoc, List.singleton_append] at ih'
      rw [← ih', tokText_cons]
      cases hu1 : u.1 with
      | nil => exact absurd hu1 hu
      | cons c cs =>
        have hc : c ≠ ' ' := by
          intro hc
          rw [hu1, hc] at hub
          simp [bareGo] at hub
        simp only [List.cons_append, List.foldl_cons]
        rw [tokStep_boundary hne hsp hc]

theorem tokenize_tokText {ts : List Tok} (h : TokList ts) (hl : ∀ p ∈ ts.getLast?, p.2 = []) :
    tokenize (tokText ts) = ts := by
  have := tokFinal_fold ts [] h hl
  rw [List.nil_append] at this
  exact this

theorem tokText_head {ts : List Tok} (h : TokList ts) : (tokText ts).head? ≠ some ' ' := by
  cases ts with
  | nil => simp
  | cons t ts =>
    rw [tokText_cons]
    have h1 := h.ne t (by simp)
    have h2 := h.bare t (by simp)
    cases ht : t.1 with
    | nil => exact absurd ht h1
    | cons c cs =>
      simp only [List.cons_append, List.head?_cons, ne_eq, Option.some.injEq]
      intro hc
      rw [ht, hc] at h2
      simp [bareGo] at h2

end Hongdown
