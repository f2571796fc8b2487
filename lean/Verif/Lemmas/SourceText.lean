import Verif.Spec.SourceText
import Verif.Model.Source

/-!
# Lemmas for escaping against the source
-/

namespace Hongdown.Model
open Spec

/-! ### The reader -/

theorem readText_skip (named : List Char → Option Char) (n : Nat) (a s : List Char) (h : a.length = n) :
    readText named n (a ++ s) = readText named 0 s := by
  subst h
  induction a with
  | nil => rfl
  | cons c a ih => rw [List.length_cons, List.cons_append, readText, ih]

theorem hexDigit_alnum {c : Char} {d : Nat} (h : hexDigit c = some d) : inReference c = true := by
  unfold hexDigit at h
  unfold inReference Char.isAlphanum Char.isAlpha Char.isUpper Char.isLower Char.isDigit
  simp only [Char.le_def, UInt32.le_iff_toNat_le] at h
  simp only [ge_iff_le, UInt32.le_iff_toNat_le, Bool.or_eq_true, Bool.and_eq_true, decide_eq_true_eq]
  simp only [show ('0' : Char).val.toNat = 48 from rfl, show ('9' : Char).val.toNat = 57 from rfl,
    show ('a' : Char).val.toNat = 97 from rfl, show ('f' : Char).val.toNat = 102 from rfl,
    show ('A' : Char).val.toNat = 65 from rfl, show ('F' : Char).val.toNat = 70 from rfl] at h
  simp only [show ('0' : Char).val.toNat = 48 from rfl, show ('9' : Char).val.toNat = 57 from rfl,
    show ('a' : Char).val.toNat = 97 from rfl, show ('z' : Char).val.toNat = 122 from rfl,
    show ('A' : Char).val.toNat = 65 from rfl, show ('Z' : Char).val.toNat = 90 from rfl]
  generalize c.val.toNat = n at *
  split at h
  · omega
  · split at h
    · omega
    · split at h
      · omega
      · cases h

/-- The step of `readNumber`. -/
def numStep (base : Nat) (a : Option Nat) (c : Char) : Option Nat :=
  a.bind fun a => (hexDigit c).bind fun d => if d < base then some (a * base + d) else none

theorem foldl_numStep_none (base : Nat) (s : List Char) : s.foldl (numStep base) none = none := by
  induction s with
  | nil => rfl
  | cons c s ih => rw [List.foldl_cons]; exact ih

theorem foldl_numStep_alnum {base : Nat} : ∀ (s : List Char) (a n : Nat),
    s.foldl (numStep base) (some a) = some n → ∀ c ∈ s, inReference c = true
  | [], _, _, _, c, hc => by cases hc
  | x :: s, a, n, h, c, hc => by
    rw [List.foldl_cons] at h
    cases e : hexDigit x with
    | none => simp [numStep, e, foldl_numStep_none] at h
    | some d =>
      by_cases hd : d < base
      · simp only [numStep, e, Option.bind_some, hd, if_true] at h
        rcases List.mem_cons.mp hc with rfl | hc
        · exact hexDigit_alnum e
        · exact foldl_numStep_alnum s _ n h c hc
      · simp [numStep, e, hd, foldl_numStep_none] at h

theorem readNumber_alnum {base n : Nat} {s : List Char} (h : readNumber base s = some n) :
    ∀ c ∈ s, inReference c = true := foldl_numStep_alnum s 0 n h

theorem referenceChar_alnum {named : List Char → Option Char} (hn : NamesOk named) {s : List Char} {c : Char}
    (h : referenceChar named s = some c) : ∀ c ∈ s, inReference c = true := by
  unfold referenceChar at h
  split at h
  · split at h
    · obtain ⟨n, h, _⟩ := Option.map_eq_some_iff.mp h
      intro c hc
      rcases List.mem_cons.mp hc with rfl | hc
      · rfl
      · rcases List.mem_cons.mp hc with rfl | hc
        · rfl
        · exact readNumber_alnum h c hc
    · cases h
  · split at h
    · obtain ⟨n, h, _⟩ := Option.map_eq_some_iff.mp h
      intro c hc
      rcases List.mem_cons.mp hc with rfl | hc
      · rfl
      · rcases List.mem_cons.mp hc with rfl | hc
        · rfl
        · exact readNumber_alnum h c hc
    · cases h
  · split at h
    · obtain ⟨n, h, _⟩ := Option.map_eq_some_iff.mp h
      intro c hc
      rcases List.mem_cons.mp hc with rfl | hc
      · rfl
      · exact readNumber_alnum h c hc
    · cases h
  · intro c hc
    unfold inReference
    rw [(hn _ _ h).2 c hc]; rfl

theorem takeWhile_all {p q : Char → Bool} : ∀ (s : List Char), (∀ c, q c = true → p c = true) →
    (∀ c ∈ s.takeWhile p, q c = true) → (∃ c ∈ s, p c = false) →
    ∃ c, (s.dropWhile q).head? = some c ∧ p c = false ∨ (s.dropWhile q).head? = some c ∧ q c = true
  | [], _, _, h => by obtain ⟨c, hc, _⟩ := h; cases hc
  | x :: s, hq, ht, h => by
    by_cases hx : p x = true
    · have hqx : q x = true := ht x (by rw [List.takeWhile_cons_of_pos hx]; exact .head _)
      rw [List.dropWhile_cons_of_pos hqx]
      refine takeWhile_all s hq (fun c hc => ht c (by rw [List.takeWhile_cons_of_pos hx]; exact .tail _ hc)) ?_
      obtain ⟨c, hc, h⟩ := h
      rcases List.mem_cons.mp hc with rfl | hc
      · rw [hx] at h; cases h
      · exact ⟨c, hc, h⟩
    · have hx : p x = false := by simpa using hx
      have hqx : ¬ q x = true := fun h => by rw [hq x h] at hx; cases hx
      rw [List.dropWhile_cons_of_neg hqx]
      exact ⟨x, .inl ⟨rfl, hx⟩⟩

theorem head_dropWhile {q : Char → Bool} : ∀ (s : List Char) (c : Char), (s.dropWhile q).head? = some c → q c = false
  | [], _, h => by cases h
  | x :: s, c, h => by
    by_cases hx : q x = true
    · rw [List.dropWhile_cons_of_pos hx] at h; exact head_dropWhile s c h
    · rw [List.dropWhile_cons_of_neg hx] at h
      cases h
      simpa using hx

theorem referenceAt_none {named : List Char → Option Char} (hn : NamesOk named) {s : List Char}
    (h : (s.dropWhile inReference).head? ≠ some ';') : referenceAt named s = none := by
  unfold referenceAt
  split
  · next hm =>
    rw [Option.map_eq_none_iff]
    cases e : referenceChar named (s.takeWhile (· ≠ ';')) with
    | none => rfl
    | some c =>
      exfalso
      have := takeWhile_all (p := fun c => decide (c ≠ ';')) (q := inReference) s
        (by intro c hc
            simp only [decide_eq_true_eq]
            rintro rfl
            revert hc; decide)
        (referenceChar_alnum hn e) ⟨';', hm, by decide⟩
      obtain ⟨c, ⟨h1, h2⟩ | ⟨h1, h2⟩⟩ := this
      · simp only [ne_eq, decide_not, Bool.not_eq_eq_eq_not, Bool.not_false, decide_eq_true_eq] at h2
        subst h2
        exact h h1
      · rw [head_dropWhile s c h1] at h2; cases h2
  · rfl

theorem takeWhile_semi (body rest : List Char) (h : ';' ∉ body) :
    (body ++ ';' :: rest).takeWhile (· ≠ ';') = body := by
  induction body with
  | nil => simp
  | cons c body ih =>
    have hc : c ≠ ';' := fun e => h (e ▸ .head _)
    rw [List.cons_append, List.takeWhile_cons_of_pos (by simpa using hc), ih (fun h' => h (.tail _ h'))]

theorem referenceAt_some {named : List Char → Option Char} {body : List Char} {c : Char} (rest : List Char)
    (h : ';' ∉ body) (hc : referenceChar named body = some c) :
    referenceAt named (body ++ ';' :: rest) = some (c, body.length + 1) := by
  unfold referenceAt
  rw [if_pos (by simp), takeWhile_semi body rest h, hc]
  rfl

theorem readText_pieces {named : List Char → Option Char} (hn : NamesOk named) : ∀ (ps : List Piece),
    PiecesOk named ps → readText named 0 (piecesSource ps) = ps.map Piece.means
  | [], _ => rfl
  | p :: ps, ⟨hp, hps⟩ => by
    have ih := readText_pieces hn ps hps
    have e : piecesSource (p :: ps) = p.source ++ piecesSource ps := rfl
    rw [e, List.map_cons, ← ih]
    generalize piecesSource ps = S at *
    cases p with
    | char c =>
      obtain ⟨h1, h2⟩ := hp
      simp only [Piece.source, Piece.means, List.cons_append, List.nil_append, readText]
      by_cases hb : c = '\\'
      · subst hb
        rw [if_pos rfl]
        cases S with
        | nil => rfl
        | cons d S => simp only [h2 rfl d rfl, if_false]
      · rw [if_neg hb]
        by_cases ha : c = '&'
        · subst ha
          rw [if_pos rfl, referenceAt_none hn (h1 rfl)]
        · rw [if_neg ha]
    | escaped c =>
      simp only [Piece.source, Piece.means, List.cons_append, List.nil_append, readText, if_true]
      rw [if_pos hp]
    | reference body c =>
      obtain ⟨h1, h2⟩ := hp
      simp only [Piece.source, Piece.means, List.cons_append, List.append_assoc, List.nil_append, readText]
      rw [if_neg (by decide), if_pos trivial, referenceAt_some S h1 h2]
      simp only
      rw [show body ++ ';' :: S = (body ++ [';']) ++ S by simp, readText_skip _ _ _ _ (by simp)]

/-! ### The model -/

/-- What the code writes for a part. -/
def pieceWritten : Piece → List Char
  | .char c => escapeChar c
  | .escaped c => ['\\', c]
  | .reference body _ => '&' :: body ++ [';']

theorem escapeChar_eq (c : Char) :
    escapeChar c = if c = '*' ∨ c = '_' ∨ c = '\\' ∨ c = '`' then ['\\', c] else [c] := by
  unfold escapeChar escapeText escapeTextGo escapeTextGo
  by_cases h1 : c = '*' <;> by_cases h2 : c = '_' <;> by_cases h3 : c = '[' <;> by_cases h4 : c = ']' <;>
    by_cases h5 : c = '\\' <;> by_cases h6 : c = '`' <;> simp_all [needsEscape]

theorem scanEntity_none : ∀ (k : Nat) (s : List Char), (s.dropWhile inReference).head? ≠ some ';' →
    scanEntity k s = none
  | 0, _, _ => rfl
  | _ + 1, [], _ => rfl
  | k + 1, c :: s, h => by
    rw [scanEntity]
    by_cases hc : inReference c = true
    · rw [List.dropWhile_cons_of_pos hc] at h
      rw [if_neg (by rintro rfl; revert hc; decide), if_pos (show (isAsciiAlnum c || decide (c = '#')) = true from hc), scanEntity_none k s h]; rfl
    · rw [List.dropWhile_cons_of_neg hc] at h
      rw [if_neg (by rintro rfl; exact h rfl), if_neg (show ¬ (isAsciiAlnum c || decide (c = '#')) = true from hc)]

theorem scanEntity_some (rest : List Char) : ∀ (k : Nat) (body : List Char), body.length < k →
    (∀ c ∈ body, inReference c = true) → scanEntity k (body ++ ';' :: rest) = some body
  | 0, _, h, _ => absurd h (Nat.not_lt_zero _)
  | k + 1, [], _, _ => by rw [List.nil_append, scanEntity, if_pos rfl]
  | k + 1, c :: body, h, ha => by
    rw [List.length_cons] at h
    have hc := ha c (.head _)
    rw [List.cons_append, scanEntity, if_neg (by rintro rfl; revert hc; decide), if_pos (show (isAsciiAlnum c || decide (c = '#')) = true from hc),
      scanEntity_some rest k body (by omega) (fun d hd => ha d (.tail _ hd))]; rfl

theorem digitVal_eq {base : Nat} (hb : base ≤ 16) {c : Char} {d : Nat} (h : hexDigit c = some d) (hd : d < base) :
    digitVal base c = some d := by
  unfold hexDigit at h
  simp only [Char.le_def, UInt32.le_iff_toNat_le] at h
  simp only [show ('0' : Char).val.toNat = 48 from rfl, show ('9' : Char).val.toNat = 57 from rfl,
    show ('a' : Char).val.toNat = 97 from rfl, show ('f' : Char).val.toNat = 102 from rfl,
    show ('A' : Char).val.toNat = 65 from rfl, show ('F' : Char).val.toNat = 70 from rfl] at h
  unfold digitVal
  have e : c.toNat = c.val.toNat := rfl
  rw [e] at h
  simp only [e]
  generalize c.val.toNat = n at *
  simp only [Bool.and_eq_true, decide_eq_true_eq]
  split at h
  · next h0 =>
    rw [if_pos h0]
    simp only [Option.some.injEq] at h
    subst h
    simp [Option.filter, hd]
  · next h0 =>
    rw [if_neg h0]
    split at h
    · next h1 =>
      simp only [Option.some.injEq] at h
      rw [if_neg (by omega), if_pos (by omega)]
      have : n - 97 + 10 = d := by omega
      rw [this]
      simp [Option.filter, hd]
    · split at h
      · next h1 =>
        simp only [Option.some.injEq] at h
        rw [if_pos (by omega)]
        have : n - 65 + 10 = d := by omega
        rw [this]
        simp [Option.filter, hd]
      · cases h

theorem digitsVal_eq {base : Nat} (hb : base ≤ 16) : ∀ (s : List Char) (a n : Nat),
    s.foldl (numStep base) (some a) = some n → digitsVal base a s = some n
  | [], a, n, h => h
  | x :: s, a, n, h => by
    rw [List.foldl_cons] at h
    cases e : hexDigit x with
    | none => simp [numStep, e, foldl_numStep_none] at h
    | some d =>
      by_cases hd : d < base
      · simp only [numStep, e, Option.bind_some, hd, if_true] at h
        rw [digitsVal, digitVal_eq hb e hd]
        exact digitsVal_eq hb s _ n h
      · simp [numStep, e, hd, foldl_numStep_none] at h

theorem charFromNat_scalar {n : Nat} {c : Char} (h : scalar n = c) (hc : c ≠ '�') : charFromNat n = some c := by
  unfold scalar at h
  unfold charFromNat
  split at h
  · next h0 => rw [if_pos h0.2, h]
  · exact absurd h.symm hc

theorem decodeEntity_eq {named : List Char → Option Char} {body : List Char} {c : Char}
    (h : referenceChar named body = some c) (hc : c ≠ '�') : decodeEntity named body = some c := by
  have key : ∀ (base : Nat) (s : List Char), base ≤ 16 → s ≠ [] → (readNumber base s).map scalar = some c →
      (parseNat base s).bind charFromNat = some c := by
    intro base s hb hs h
    obtain ⟨n, h1, h2⟩ := Option.map_eq_some_iff.mp h
    rw [parseNat, if_neg hs, digitsVal_eq hb s 0 n h1]
    exact charFromNat_scalar h2 hc
  unfold referenceChar at h
  split at h
  · split at h
    · next h0 => exact key 16 _ (by decide) h0.1 h
    · cases h
  · split at h
    · next h0 => exact key 16 _ (by decide) h0.1 h
    · cases h
  · next s h1 h2 =>
    split at h
    · next h0 =>
      unfold decodeEntity
      split
      · next e => cases e; exact absurd rfl (h1 _)
      · next e => cases e; exact absurd rfl (h2 _)
      · next e => cases e; exact key 10 _ (by decide) h0.1 h
      · next e => exact absurd rfl (e _)
    · cases h
  · next h1 h2 h3 =>
    unfold decodeEntity
    split
    · exact absurd rfl (h1 _)
    · exact absurd rfl (h2 _)
    · exact absurd rfl (h3 _)
    · exact h

theorem escapeSrcGo_pieces {named : List Char → Option Char} (hn : NamesOk named) : ∀ (ps : List Piece) (k : Nat),
    ps.length ≤ k → PiecesOk named ps → (∀ p ∈ ps, p.simple) →
    escapeSrcGo named k (ps.map Piece.means) (piecesSource ps) = ps.flatMap pieceWritten
  | [], 0, _, _, _ => rfl
  | [], k + 1, _, _, _ => by rw [List.map_nil, escapeSrcGo]; rfl
  | p :: ps, 0, h, _, _ => by simp at h
  | p :: ps, k + 1, h, ⟨hp, hps⟩, hs => by
    have ih := escapeSrcGo_pieces hn ps k (by simpa using h) hps (fun q hq => hs q (.tail _ hq))
    have hs := hs p (.head _)
    have e : piecesSource (p :: ps) = p.source ++ piecesSource ps := rfl
    rw [e, List.map_cons, List.flatMap_cons, ← ih]
    generalize piecesSource ps = S at *
    generalize ps.map Piece.means = T at *
    cases p with
    | char c =>
      obtain ⟨h1, h2⟩ := hp
      simp only [Piece.source, Piece.means, List.cons_append, List.nil_append, pieceWritten]
      rw [escapeSrcGo]
      by_cases hb : c = '\\'
      · subst hb
        by_cases hS : S = []
        · subst hS
          rw [if_neg (by simp), if_neg (by decide), if_pos rfl]
        · rw [if_pos ⟨rfl, hS⟩, if_pos rfl, if_neg]
          intro hh
          exact h2 rfl '\\' hh (by decide)
      · rw [if_neg (by simp [hb])]
        by_cases ha : c = '&'
        · subst ha
          have : tryParseEntity named S = none := by
            rw [tryParseEntity, scanEntity_none _ _ (h1 rfl)]
          rw [if_pos rfl, this]
          simp only [if_true]
        · rw [if_neg ha, if_pos rfl]
    | escaped c =>
      simp only [Piece.source, Piece.means, List.cons_append, List.nil_append, pieceWritten]
      rw [escapeSrcGo, if_pos ⟨rfl, by simp⟩]
      rcases hs with rfl | rfl | rfl | rfl
      · rw [if_neg (by decide), if_pos (by rfl)]; rfl
      · rw [if_neg (by decide), if_pos (by rfl)]; rfl
      · rw [if_pos rfl, if_pos (by rfl)]; rfl
      · rw [if_neg (by decide), if_pos (by rfl)]; rfl
    | reference body c =>
      obtain ⟨h1, h2⟩ := hp
      obtain ⟨h3, h4⟩ := hs
      simp only [Piece.source, Piece.means, List.cons_append, List.append_assoc, List.nil_append, pieceWritten]
      have : tryParseEntity named (body ++ ';' :: S) = some ('&' :: body ++ [';'], c) := by
        rw [tryParseEntity, scanEntity_some S 11 body (by omega) (referenceChar_alnum hn h2)]
        simp only [decodeEntity_eq h2 h4, Option.map_some]
      rw [escapeSrcGo, if_neg (by simp), if_pos rfl, this]
      simp only [if_true, List.length_append, List.length_cons, List.length_nil, List.cons_append]
      rw [show body.length + (0 + 1) + 1 = (body ++ [';']).length + 1 by simp, List.drop_succ_cons,
        show body ++ ';' :: S = (body ++ [';']) ++ S by simp, List.drop_left]
      simp

theorem piecesSource_length : ∀ ps : List Piece, ps.length ≤ (piecesSource ps).length
  | [] => Nat.le_refl _
  | p :: ps => by
    have := piecesSource_length ps
    have e : piecesSource (p :: ps) = p.source ++ piecesSource ps := rfl
    rw [e, List.length_cons, List.length_append]
    have : 1 ≤ p.source.length := by cases p <;> simp [Piece.source]
    omega

theorem escape_pieces {named : List Char → Option Char} (hn : NamesOk named) (ps : List Piece)
    (h : PiecesOk named ps) (hs : ∀ p ∈ ps, p.simple) :
    escapeTextPreservingSource named (ps.map Piece.means) (piecesSource ps) = ps.flatMap pieceWritten :=
  escapeSrcGo_pieces hn ps _ (by simp) h hs

theorem written_semi : ∀ ps : List Piece, ((ps.flatMap pieceWritten).dropWhile inReference).head? = some ';' →
    ((piecesSource ps).dropWhile inReference).head? = some ';'
  | [], h => by cases h
  | p :: ps, h => by
    have ih := written_semi ps
    have e : piecesSource (p :: ps) = p.source ++ piecesSource ps := rfl
    rw [e]
    rw [List.flatMap_cons] at h
    cases p with
    | char c =>
      simp only [pieceWritten, escapeChar_eq] at h
      simp only [Piece.source, List.cons_append, List.nil_append]
      split at h
      · exact absurd h (by simp [List.dropWhile, show inReference '\\' = false by decide])
      · simp only [List.cons_append, List.nil_append] at h
        by_cases hc : inReference c = true
        · rw [List.dropWhile_cons_of_pos hc] at h ⊢
          exact ih h
        · rw [List.dropWhile_cons_of_neg hc] at h ⊢
          exact h
    | escaped c => exact absurd h (by simp [pieceWritten, List.dropWhile, show inReference '\\' = false by decide])
    | reference body c => exact absurd h (by simp [pieceWritten, List.dropWhile, show inReference '&' = false by decide])

theorem readText_written {named : List Char → Option Char} (hn : NamesOk named) : ∀ (ps : List Piece),
    PiecesOk named ps → readText named 0 (ps.flatMap pieceWritten) = ps.map Piece.means
  | [], _ => rfl
  | p :: ps, ⟨hp, hps⟩ => by
    have ih := readText_written hn ps hps
    have hw := written_semi ps
    rw [List.flatMap_cons, List.map_cons, ← ih]
    cases p with
    | char c =>
      obtain ⟨h1, h2⟩ := hp
      simp only [pieceWritten, Piece.means, escapeChar_eq]
      split
      · next hc =>
        simp only [List.cons_append, List.nil_append, readText, if_true]
        rw [if_pos (by rcases hc with rfl | rfl | rfl | rfl <;> decide)]
      · next hc =>
        simp only [not_or] at hc
        simp only [List.cons_append, List.nil_append, readText, if_neg hc.2.2.1]
        by_cases ha : c = '&'
        · subst ha
          rw [if_pos rfl, referenceAt_none hn (fun h => h1 rfl (hw h))]
        · rw [if_neg ha]
    | escaped c =>
      simp only [pieceWritten, Piece.means, List.cons_append, List.nil_append, readText, if_true]
      rw [if_pos hp]
    | reference body c =>
      obtain ⟨h1, h2⟩ := hp
      generalize ps.flatMap pieceWritten = S at *
      simp only [pieceWritten, Piece.means, List.cons_append, List.append_assoc, List.nil_append, readText]
      rw [if_neg (by decide), if_pos trivial, referenceAt_some S h1 h2]
      simp only
      rw [show body ++ ';' :: S = (body ++ [';']) ++ S by simp, readText_skip _ _ _ _ (by simp)]

theorem liveChars_bs {c : Char} (h : c ∈ asciiPunctuation) (s : List Char) :
    liveChars ('\\' :: c :: s) = liveChars s := by rw [liveChars, if_pos h]

theorem liveChars_other {c : Char} (h : c ≠ '\\') (s : List Char) : liveChars (c :: s) = c :: liveChars s := by
  rw [liveChars.eq_4] <;> simp_all

theorem liveChars_plain (s : List Char) : ∀ (a : List Char), '\\' ∉ a → liveChars (a ++ s) = a ++ liveChars s
  | [], _ => rfl
  | c :: a, h => by
    rw [List.cons_append, liveChars_other (fun e => h (e ▸ .head _)), liveChars_plain s a (fun h' => h (.tail _ h'))]
    rfl

theorem written_live {named : List Char → Option Char} (hn : NamesOk named) : ∀ (ps : List Piece),
    PiecesOk named ps → (∀ p ∈ ps, p.simple) → ∀ c ∈ liveChars (ps.flatMap pieceWritten),
      c = '*' ∨ c = '_' ∨ c = '\\' ∨ c = '`' → False
  | [], _, _, c, hc, _ => by cases hc
  | p :: ps, ⟨hp, hps⟩, hs, c, hc, hd => by
    have ih := written_live hn ps hps (fun q hq => hs q (.tail _ hq))
    have hs := hs p (.head _)
    rw [List.flatMap_cons] at hc
    cases p with
    | char x =>
      simp only [pieceWritten, escapeChar_eq] at hc
      split at hc
      · next hx =>
        rw [List.cons_append, List.cons_append, List.nil_append,
          liveChars_bs (by rcases hx with rfl | rfl | rfl | rfl <;> decide)] at hc
        exact ih c hc hd
      · next hx =>
        rw [List.cons_append, List.nil_append, liveChars_other (fun e => hx (.inr (.inr (.inl e))))] at hc
        rcases List.mem_cons.mp hc with rfl | hc
        · exact hx hd
        · exact ih c hc hd
    | escaped x =>
      simp only [pieceWritten, List.cons_append, List.nil_append] at hc
      rw [liveChars_bs hp] at hc
      exact ih c hc hd
    | reference body x =>
      have key : ∀ y ∈ '&' :: body ++ [';'], ¬ (y = '*' ∨ y = '_' ∨ y = '\\' ∨ y = '`') := by
        intro y hy
        simp only [List.cons_append, List.mem_cons, List.mem_append, List.not_mem_nil, or_false] at hy
        rcases hy with rfl | hy | rfl
        · decide
        · have := referenceChar_alnum hn hp.2 y hy
          rintro (rfl | rfl | rfl | rfl) <;> revert this <;> decide
        · decide
      rw [show pieceWritten (.reference body x) = '&' :: body ++ [';'] from rfl,
        liveChars_plain _ _ (fun h => key _ h (by simp))] at hc
      rcases List.mem_append.mp hc with hc | hc
      · exact key c hc hd
      · exact ih c hc hd

end Hongdown.Model
