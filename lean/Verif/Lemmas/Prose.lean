import Verif.Lemmas.WrapText

/-!
# What is kept in one piece when text is wrapped
-/

namespace Hongdown
open Spec Model

/-- Without backquotes and brackets everything is outside of them. -/
theorem bareGo_plain : ∀ s : List Char, '`' ∉ s → '[' ∉ s → bareGo false 0 s = s
  | [], _, _ => rfl
  | c :: s, h1, h2 => by
    simp only [List.mem_cons, not_or] at h1 h2
    rw [bareGo, if_neg (fun h => h1.1 h.1.symm), if_neg (by decide), if_neg (fun h => h2.1 h.symm), if_neg (by simp),
      if_neg (by simp), bareGo_plain s h1.2 h2.2]

/-- Characters that are not white space survive trimming. -/
theorem mem_trimEnd_of {c : Char} {s : List Char} (hc : isWs c = false) (h : c ∈ s) : c ∈ trimEnd s := by
  have key : ∀ t : List Char, c ∈ t → c ∈ t.dropWhile isWs := by
    intro t
    induction t with
    | nil => exact id
    | cons a t ih =>
      intro hm
      rw [List.dropWhile_cons]
      split
      · next ha =>
        rcases List.mem_cons.mp hm with rfl | hm
        · rw [hc] at ha; cases ha
        · exact ih hm
      · exact hm
  rw [trimEnd, List.mem_reverse]
  exact key _ (List.mem_reverse.mpr h)

theorem infix_dropWhile {s : List Char} (hs : ∀ c ∈ s.head?, isWs c = false) (hn : s ≠ []) :
    ∀ x : List Char, s <:+: x → s <:+: x.dropWhile isWs
  | [], h => h
  | a :: x, h => by
    rw [List.dropWhile_cons]
    split
    · next ha =>
      rcases List.infix_cons_iff.mp h with h | h
      · obtain ⟨b, s, rfl⟩ := List.exists_cons_of_ne_nil hn
        have : b = a := (List.cons_prefix_cons.mp h).1
        subst this
        rw [hs b (by simp)] at ha; cases ha
      · exact infix_dropWhile hs hn x h
    · exact h

/-- A piece that does not end in white space survives the trimming of a line. -/
theorem infix_trimEnd {s x : List Char} (hs : ∀ c ∈ s.getLast?, isWs c = false) (hn : s ≠ []) (h : s <:+: x) :
    s <:+: trimEnd x := by
  have h1 := infix_dropWhile (s := s.reverse) (by rw [List.head?_reverse]; exact hs) (by simpa using hn) x.reverse
    (List.reverse_infix.mpr h)
  have h2 := List.reverse_infix.mpr h1
  rw [List.reverse_reverse] at h2
  exact h2

/-- Where a piece can be while text is wrapped. -/
def Held (s : List Char) (st : WrapSt) : Prop := s <:+: st.result ∨ s <:+: st.line

theorem held_addToken {s : List Char} (hs : ∀ c ∈ s.getLast?, isWs c = false) (hn : s ≠ []) (w firstW pfx lw tok sp)
    {st : WrapSt} (h : Held s st ∨ s <:+: tok) : Held s (addToken w firstW pfx lw tok sp st) := by
  have a1 : ∀ {x y : List Char}, s <:+: x → s <:+: x ++ y := fun h => h.trans (List.prefix_append _ _).isInfix
  have a2 : ∀ {x y : List Char}, s <:+: y → s <:+: x ++ y := fun h => h.trans (List.suffix_append _ _).isInfix
  unfold addToken
  simp only
  generalize (if st.isFirst = true then firstW else w pfx) = cw
  by_cases h1 : w st.line = cw
  · rw [if_pos h1]
    rcases h with (h | h) | h
    · exact .inl h
    · exact .inr (a1 (a1 h))
    · exact .inr (a1 (a2 h))
  · rw [if_neg h1]
    by_cases h2 : w st.line + w tok + sp.length ≤ lw
    · rw [if_pos h2]
      rcases h with (h | h) | h
      · exact .inl h
      · exact .inr (a1 (a1 h))
      · exact .inr (a1 (a2 h))
    · rw [if_neg h2]
      rcases h with (h | h) | h
      · exact .inl (a1 (a1 h))
      · exact .inl (a1 (a2 (infix_trimEnd hs hn h)))
      · exact .inr (a1 (a2 h))

theorem held_lay {s : List Char} (hs : ∀ c ∈ s.getLast?, isWs c = false) (hn : s ≠ []) (w firstW pfx lw) :
    ∀ (ts : List Tok) (st : WrapSt), (Held s st ∨ ∃ p ∈ ts, s <:+: p.1) → Held s (lay w firstW pfx lw st ts)
  | [], st, h => by
    rcases h with h | ⟨p, hp, _⟩
    · exact h
    · cases hp
  | t :: ts, st, h => by
    show Held s (lay w firstW pfx lw (addToken w firstW pfx lw t.1 t.2 st) ts)
    apply held_lay hs hn
    rcases h with h | ⟨p, hp, h⟩
    · exact .inl (held_addToken hs hn _ _ _ _ _ _ (.inl h))
    · rcases List.mem_cons.mp hp with rfl | hp
      · exact .inl (held_addToken hs hn _ _ _ _ _ _ (.inr h))
      · exact .inr ⟨p, hp, h⟩

/-- The piece is in a finished token or in the current one. -/
def InTok (s : List Char) (t : TokSt) : Prop := s <:+: t.token ∨ ∃ p ∈ t.toks, s <:+: p.1

theorem inTok_flush {s : List Char} {t : TokSt} (h : InTok s t) : InTok s (tokFlush t) := by
  unfold tokFlush
  split
  · rcases h with h | ⟨p, hp, h⟩
    · exact .inr ⟨_, List.mem_append_right _ (.head _), h⟩
    · exact .inr ⟨p, List.mem_append_left _ hp, h⟩
  · exact h

theorem inTok_push {s : List Char} {t : TokSt} (h : InTok s t) (ch : Char) (b : Bool) (d : Nat) :
    InTok s { t with token := t.token ++ [ch], inTicks := b, depth := d } := by
  rcases h with h | h
  · exact .inl (h.trans (List.prefix_append _ _).isInfix)
  · exact .inr h

theorem inTok_step {s : List Char} (t : TokSt) (ch : Char) (h : InTok s t) : InTok s (tokStep t ch) := by
  unfold tokStep
  have hf := inTok_flush h
  split
  · split
    · exact inTok_push h ch _ _
    · exact inTok_push hf ch _ _
  · split
    · exact inTok_push h ch _ _
    · split
      · simp only
        split
        · exact inTok_push hf ch _ _
        · exact inTok_push h ch _ _
      · split
        · exact inTok_push h ch _ _
        · split
          · exact inTok_push h ch _ _
          · split
            · exact h
            · exact inTok_push hf ch _ _

theorem inTok_fold {s : List Char} : ∀ (x : List Char) (t : TokSt), InTok s t → InTok s (x.foldl tokStep t)
  | [], _, h => h
  | c :: x, t, h => inTok_fold x _ (inTok_step t c h)

theorem tokenize_of_inTok {s text : List Char} (hn : s ≠ []) (h : InTok s (text.foldl tokStep tokInit)) :
    ∃ p ∈ tokenize text, s <:+: p.1 := by
  unfold tokenize tokFinal
  rcases h with h | ⟨p, hp, h⟩
  · rw [if_pos (fun e => by rw [e] at h; exact hn (List.eq_nil_of_infix_nil h))]
    exact ⟨_, List.mem_append_right _ (.head _), h⟩
  · refine ⟨p, ?_, h⟩
    split
    · exact List.mem_append_left _ hp
    · exact hp

theorem infix_wrapSingle {s text : List Char} (hs : ∀ c ∈ s.getLast?, isWs c = false) (hn : s ≠ []) (w : List Char → Nat)
    (fp pfx : List Char) (lw : Nat) (h : ∃ p ∈ tokenize text, s <:+: p.1) : s <:+: wrapSingle w text fp pfx lw := by
  rw [wrapSingle_eq_lay]
  rcases held_lay hs hn w (w fp) pfx lw (tokenize text) (wrapInit fp) (.inr h) with h | h
  · exact h.trans (List.prefix_append _ _).isInfix
  · exact (infix_trimEnd hs hn h).trans (List.suffix_append _ _).isInfix

/-- The tokenizer knows whether it is inside a code span or brackets. -/
theorem tok_mode (t : TokSt) (ch : Char) : ((tokStep t ch).inTicks, (tokStep t ch).depth) = endSt t.inTicks t.depth [ch] := by
  unfold tokStep
  have hm := tokFlush_mode t
  simp only [endSt]
  split
  · split
    · next hb => simp [hb]
    · next hb => simp [hb, hm]
  · split
    · rfl
    · split
      · next hb hc =>
        by_cases hd : t.depth = 0
        · simp [hd, hm]
        · simp [hd]
      · split
        · rfl
        · split
          · rfl
          · split
            · rfl
            · simp [hm]

theorem tok_modes : ∀ (x : List Char) (t : TokSt),
    ((x.foldl tokStep t).inTicks, (x.foldl tokStep t).depth) = endSt t.inTicks t.depth x
  | [], _ => rfl
  | c :: x, t => by
    have h := tok_mode t c
    rw [List.foldl_cons, tok_modes x]
    have e := endSt_append [c] x t.inTicks t.depth
    rw [← h] at e
    exact e.symm

/-- Inside a code span everything is put into the token. -/
theorem tok_code : ∀ (c : List Char) (t : TokSt), '`' ∉ c → t.inTicks = true → t.depth = 0 →
    c.foldl tokStep t = { t with token := t.token ++ c }
  | [], t, _, _, _ => by simp
  | a :: c, t, h, hb, hd => by
    simp only [List.mem_cons, not_or] at h
    have e : tokStep t a = { t with token := t.token ++ [a] } := by
      unfold tokStep
      rw [if_neg (fun k => h.1 k.1.symm), if_pos hb]
    rw [List.foldl_cons, e]
    have e2 := tok_code c { t with token := t.token ++ [a] } h.2 hb hd
    simpa using e2

/-- A code span is in one token. -/
theorem tok_span (a c b : List Char) (ha : EndsOutside a) (hc : '`' ∉ c) :
    ∃ p ∈ tokenize (a ++ ('`' :: c ++ ['`']) ++ b), '`' :: c ++ ['`'] <:+: p.1 := by
  apply tokenize_of_inTok (by simp)
  rw [List.foldl_append, List.foldl_append]
  apply inTok_fold
  have hm := tok_modes a tokInit
  have ha' : endSt tokInit.inTicks tokInit.depth a = (false, 0) := ha
  rw [ha'] at hm
  generalize a.foldl tokStep tokInit = t at hm
  have h1 : t.inTicks = false := congrArg Prod.fst hm
  have h2 : t.depth = 0 := congrArg Prod.snd hm
  have hf := tokFlush_mode t
  have e : tokStep t '`' = { tokFlush t with token := (tokFlush t).token ++ ['`'], inTicks := true } := by
    unfold tokStep
    rw [if_pos ⟨rfl, h2⟩, if_neg (by simp [h1])]
  have e2 := tok_code c (tokStep t '`') hc (by rw [e]) (by rw [e]; show (tokFlush t).depth = 0; rw [hf.2, h2])
  have e3 : ('`' :: c).foldl tokStep t = { tokStep t '`' with token := (tokStep t '`').token ++ c } := e2
  rw [List.foldl_append, e3, e]
  left
  refine ⟨(tokFlush t).token, [], ?_⟩
  simp [tokStep, hf, h2]

end Hongdown
