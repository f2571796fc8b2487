import Verif.Spec.Sentence
import Verif.Lemmas.Sentence
import Verif.Lemmas.Curl
import Verif.Lemmas.HeadingWords

/-!
# Nouns of several words in headings
-/

namespace Hongdown
open Model Spec

/-- The text of an atom while the nouns are replaced by placeholders. -/
def encAtom : Atom → List Char
  | .char c => [c]
  | .noun i => placeholder i

def encAtoms (l : List Atom) : List Char := l.flatMap encAtom

/-- The possessive ending after a noun. -/
def OwnAt (u : Uni) (own : List Char) (rest : List Atom) : Prop :=
  own = ['\'', 's'] ∨ own = ['’', 's'] ∨ own = [] ∧ AtomEdge u rest.head? ∧
    ∀ q ∈ ['\'', '’'], ¬ [.char q, .char 's'] <+: rest

/-- The search for one noun. -/
inductive Scan (u : Uni) (p : List Char) : Option Atom → Nat → List Atom → List Atom → List Found → Prop
  | stop (prev i B) : (∀ X m Y, B = X ++ m.map .char ++ Y → ¬ IsPhrase u p m) → Scan u p prev i B B []
  | hit (prev i m own rest R new) : IsPhrase u p m → AtomEdge u prev → OwnAt u own rest →
      Scan u p (some (.noun i)) (i + 1) rest R new →
      Scan u p prev i (m.map .char ++ (own.map .char ++ rest)) (.noun i :: R) (⟨p, m, own⟩ :: new)
  | skip (prev i a rest R new) :
      (∀ m Y, a :: rest = m.map .char ++ Y → IsPhrase u p m → AtomEdge u prev → ¬ AtomEdge u Y.head?) →
      Scan u p (some a) i rest R new → Scan u p prev i (a :: rest) (a :: R) new

section
variable {u : Uni} {p : List Char} {prev : Option Atom} {i : Nat} {B R : List Atom} {new F : List Found}

theorem atomEdge_noun (i : Nat) : AtomEdge u (some (.noun i)) := by intro d h; simp at h

theorem map_char_split {cs : List Char} {rest : List Atom} {X Y : List Atom} {j : Nat}
    (h : cs.map Atom.char ++ rest = X ++ .noun j :: Y) : ∃ X1, X = cs.map .char ++ X1 ∧ rest = X1 ++ .noun j :: Y := by
  rw [List.append_eq_append_iff] at h
  rcases h with ⟨a, h1, h2⟩ | ⟨a, h1, h2⟩
  · exact ⟨a, h1, h2⟩
  · cases a with
    | nil => exact ⟨[], by simpa using h1.symm, by simpa using h2.symm⟩
    | cons x a =>
      exfalso
      simp only [List.cons_append, List.cons.injEq] at h2
      have : Atom.noun j ∈ cs.map Atom.char := by rw [h1, h2.1]; simp
      simp at this

theorem scan_chars (h : Scan u p prev i B R new) : ∀ cs : List Char, cs.map Atom.char <+: R → cs.map Atom.char <+: B := by
  induction h with
  | stop prev i B _ => exact fun _ h => h
  | hit prev i m own rest R new _ _ _ _ ih =>
    intro cs hc
    cases cs with
    | nil => exact List.nil_prefix
    | cons c cs => rw [List.map_cons, List.cons_prefix_cons] at hc; simp at hc
  | skip prev i a rest R new _ _ ih =>
    intro cs hc
    cases cs with
    | nil => exact List.nil_prefix
    | cons c cs =>
      rw [List.map_cons, List.cons_prefix_cons] at hc ⊢
      exact ⟨hc.1, ih cs hc.2⟩

theorem scan_head (h : Scan u p prev i B R new) (he : AtomEdge u B.head?) : AtomEdge u R.head? := by
  intro d hd
  have := scan_chars h [d] (by
    cases R with
    | nil => simp at hd
    | cons a R => simp at hd; simp [hd])
  obtain ⟨t, rfl⟩ := this
  exact he d rfl

theorem OwnAt.scan {own : List Char} (ho : OwnAt u own B) (h : Scan u p prev i B R new) : OwnAt u own R := by
  rcases ho with ho | ho | ⟨h1, h2, h3⟩
  · exact .inl ho
  · exact .inr (.inl ho)
  · exact .inr (.inr ⟨h1, scan_head h h2, fun q hq hp => h3 q hq (scan_chars h [q, 's'] hp)⟩)

/-- Every noun is one that was found. -/
def AllOk (u : Uni) (F : List Found) (P : List Char → Prop) : Option Atom → List Atom → Prop
  | _, [] => True
  | prev, a :: rest => (∀ i, a = .noun i → ∃ f, F[i]? = some f ∧ P f.noun ∧ IsPhrase u f.noun f.source ∧ AtomEdge u prev ∧
      OwnAt u f.own rest) ∧ AllOk u F P (some a) rest

variable {P : List Char → Prop}

theorem AllOk.edge {prev' : Option Atom} (hp : AtomEdge u prev → AtomEdge u prev') (h : AllOk u F P prev B) : AllOk u F P prev' B := by
  cases B with
  | nil => trivial
  | cons a rest =>
    refine ⟨fun i hi => ?_, h.2⟩
    obtain ⟨f, h1, h2, h3, h4, h5⟩ := h.1 i hi
    exact ⟨f, h1, h2, h3, hp h4, h5⟩

theorem AllOk.mono {Q : List Char → Prop} (hp : ∀ x, P x → Q x) : ∀ {prev : Option Atom} {B : List Atom}, AllOk u F P prev B → AllOk u F Q prev B
  | _, [], _ => trivial
  | _, _ :: _, h => ⟨fun i hi => by
      obtain ⟨f, h1, h2, h3, h4, h5⟩ := h.1 i hi
      exact ⟨f, h1, hp _ h2, h3, h4, h5⟩, h.2.mono hp⟩

theorem AllOk.drop : ∀ {cs : List Atom} {prev : Option Atom}, AllOk u F P prev (cs ++ B) → ∃ prev', AllOk u F P prev' B
  | [], prev, h => ⟨prev, h⟩
  | _ :: _, _, h => AllOk.drop h.2

theorem AllOk.split : ∀ {X : List Atom} {prev : Option Atom} {j : Nat} {Y : List Atom}, AllOk u F P prev (X ++ .noun j :: Y) →
    ∃ f, F[j]? = some f ∧ P f.noun ∧ IsPhrase u f.noun f.source ∧ AtomEdge u (X.getLast?.or prev) ∧ OwnAt u f.own Y
  | [], prev, j, Y, h => by simpa using h.1 j rfl
  | a :: X, prev, j, Y, h => by
    obtain ⟨f, h1, h2, h3, h4, h5⟩ := h.2.split
    refine ⟨f, h1, h2, h3, ?_, h5⟩
    rw [List.getLast?_cons]
    cases hx : X.getLast? with
    | none => rw [hx] at h4; simpa using h4
    | some y => rw [hx] at h4; simpa using h4

theorem allOk_scan (h : Scan u p prev i B R new) : (∀ k f, new[k]? = some f → F[i + k]? = some f) → P p →
    ∀ {prev' : Option Atom}, (AtomEdge u prev → AtomEdge u prev') → AllOk u F P prev B → AllOk u F P prev' R := by
  induction h with
  | stop prev i B _ => exact fun _ _ prev' hp h => h.edge hp
  | hit prev i m own rest R new h1 h2 h3 h4 ih =>
    intro hF hP prev' hp h
    refine ⟨?_, ?_⟩
    · intro j hj
      simp only [Atom.noun.injEq] at hj
      subst hj
      exact ⟨_, hF 0 _ rfl, hP, h1, hp h2, h3.scan h4⟩
    · rw [← List.append_assoc] at h
      obtain ⟨prev'', h⟩ := h.drop
      exact ih (fun k f hk => by have := hF (k + 1) f hk; rwa [show i + (k + 1) = i + 1 + k by omega] at this) hP (fun h => h)
        (h.edge fun _ => atomEdge_noun i)
  | skip prev i a rest R new h1 h2 ih =>
    intro hF hP prev' hp h
    refine ⟨?_, ih hF hP (fun h => h) h.2⟩
    intro j hj
    obtain ⟨f, g1, g2, g3, g4, g5⟩ := h.1 j hj
    exact ⟨f, g1, g2, g3, hp g4, g5.scan h2⟩

/-- The source of atoms. -/
abbrev src (F : List Found) (l : List Atom) : List Char := l.flatMap (Atom.source F)

theorem src_chars (F : List Found) (cs : List Char) : src F (cs.map .char) = cs := by
  induction cs with
  | nil => rfl
  | cons c cs ih => rw [List.map_cons, src, List.flatMap_cons]; simp only [src] at ih; rw [ih]; rfl

theorem src_scan (h : Scan u p prev i B R new) : (∀ k f, new[k]? = some f → F[i + k]? = some f) → src F R = src F B := by
  induction h with
  | stop prev i B _ => exact fun _ => rfl
  | hit prev i m own rest R new h1 h2 h3 h4 ih =>
    intro hF
    have := ih (fun k f hk => by have := hF (k + 1) f hk; rwa [show i + (k + 1) = i + 1 + k by omega] at this)
    have h0 := hF 0 _ rfl
    simp only [src] at this ⊢
    have hm := src_chars F m
    have ho := src_chars F own
    simp only [src] at hm ho
    rw [List.flatMap_cons, this, List.flatMap_append, List.flatMap_append, hm, ho]
    simp only [Nat.add_zero] at h0
    simp [Atom.source, h0]
  | skip prev i a rest R new h1 h2 ih =>
    intro hF
    have := ih hF
    simp only [src] at this ⊢
    rw [List.flatMap_cons, List.flatMap_cons, this]

theorem scan_keeps (h : Scan u p prev i B R new) : (∀ k f, new[k]? = some f → F[i + k]? = some f) → ∀ X j Y, B = X ++ .noun j :: Y →
    ∃ X' Y', R = X' ++ .noun j :: Y' ∧ src F X' = src F X := by
  induction h with
  | stop prev i B _ => exact fun _ X j Y h => ⟨X, Y, h, rfl⟩
  | hit prev i m own rest R new h1 h2 h3 h4 ih =>
    intro hF X j Y e
    rw [← List.append_assoc, ← List.map_append] at e
    obtain ⟨X1, rfl, e'⟩ := map_char_split e
    obtain ⟨X', Y', e'', hs⟩ := ih (fun k f hk => by have := hF (k + 1) f hk; rwa [show i + (k + 1) = i + 1 + k by omega] at this) X1 j Y e'
    refine ⟨.noun i :: X', Y', by rw [e'']; rfl, ?_⟩
    have h0 := hF 0 _ rfl
    have hm := src_chars F (m ++ own)
    simp only [src] at hs hm ⊢
    rw [List.flatMap_cons, hs, List.flatMap_append, hm]
    simp only [Nat.add_zero] at h0
    simp [Atom.source, h0]
  | skip prev i a rest R new h1 h2 ih =>
    intro hF X j Y e
    cases X with
    | nil =>
      simp only [List.nil_append, List.cons.injEq] at e
      exact ⟨[], R, by rw [e.1]; rfl, rfl⟩
    | cons b X =>
      simp only [List.cons_append, List.cons.injEq] at e
      obtain ⟨rfl, e⟩ := e
      obtain ⟨X', Y', e'', hs⟩ := ih hF X j Y e
      refine ⟨a :: X', Y', by rw [e'']; rfl, ?_⟩
      simp only [src] at hs ⊢
      rw [List.flatMap_cons, List.flatMap_cons, hs]

theorem getLast?_append_or (A X : List Atom) (prev : Option Atom) :
    ((A ++ X).getLast?.or prev) = X.getLast?.or (A.getLast?.or prev) := by
  rw [List.getLast?_append, Option.or_assoc]

theorem scan_complete (hne : ∀ m, IsPhrase u p m → m ≠ []) (h : Scan u p prev i B R new) :
    (∀ k f, new[k]? = some f → F[i + k]? = some f) → ∀ X m Y, B = X ++ m.map .char ++ Y → IsPhrase u p m →
    AtomEdge u (X.getLast?.or prev) → AtomEdge u Y.head? →
    ∃ X' k Y' f, R = X' ++ .noun k :: Y' ∧ F[k]? = some f ∧ f.noun = p ∧ (src F X').length < (src F X).length + m.length ∧
      (src F X).length < (src F X').length + (f.source ++ f.own).length := by
  induction h with
  | stop prev i B hB => exact fun _ X m Y e hm _ _ => absurd hm (hB X m Y e)
  | hit prev i m0 own rest R new h1 h2 h3 h4 ih =>
    intro hF X m Y e hm hX hY
    have h0 := hF 0 _ rfl
    rw [Nat.add_zero] at h0
    rw [← List.append_assoc, ← List.map_append, List.append_assoc] at e
    have hmpos := List.length_pos_iff.2 (hne m hm)
    rw [List.append_eq_append_iff] at e
    rcases e with ⟨X1, e1, e2⟩ | ⟨a, e1, e2⟩
    · obtain ⟨X', k, Y', f, g1, g2, g3, g4, g5⟩ := ih
        (fun k f hk => by have := hF (k + 1) f hk; rwa [show i + (k + 1) = i + 1 + k by omega] at this) X1 m Y
        (by rw [e2, List.append_assoc]) hm (by
          subst e1
          rw [getLast?_append_or] at hX
          cases hx : X1.getLast? with
          | none => exact atomEdge_noun i
          | some y => rw [hx] at hX; simpa using hX) hY
      refine ⟨.noun i :: X', k, Y', f, by rw [g1]; rfl, g2, g3, ?_, ?_⟩ <;>
      · subst e1
        have hc := src_chars F (m0 ++ own)
        simp only [src] at g4 g5 hc ⊢
        rw [List.flatMap_cons, List.flatMap_append, hc]
        simp only [Atom.source, h0, List.length_append] at *
        omega
    · by_cases ha : a = []
      · subst ha
        obtain ⟨X', k, Y', f, g1, g2, g3, g4, g5⟩ := ih
          (fun k f hk => by have := hF (k + 1) f hk; rwa [show i + (k + 1) = i + 1 + k by omega] at this) [] m Y
          (by simpa using e2.symm) hm (atomEdge_noun i) hY
        refine ⟨.noun i :: X', k, Y', f, by rw [g1]; rfl, g2, g3, ?_, ?_⟩ <;>
        · rw [List.append_nil] at e1
          subst e1
          have hc := src_chars F (m0 ++ own)
          simp only [src] at g4 g5 hc ⊢
          rw [List.flatMap_cons, hc]
          simp only [Atom.source, h0, List.length_append, List.flatMap_nil, List.length_nil] at *
          omega
      · refine ⟨[], i, R, _, rfl, h0, rfl, ?_, ?_⟩
        · simp only [src, List.flatMap_nil, List.length_nil]
          omega
        · have hlen : (src F X).length = X.length := by
            have : X = ((m0 ++ own).take X.length).map .char := by
              rw [List.map_take, e1, List.take_left]
            rw [this, src_chars]
            have h9 := congrArg List.length e1
            simp at h9
            simp

          have h9 := congrArg List.length e1
          have := List.length_pos_iff.2 ha
          rw [hlen]
          simp at h9 ⊢
          omega
  | skip prev i a rest R new h1 h2 ih =>
    intro hF X m Y e hm hX hY
    cases X with
    | nil => exact absurd hY (h1 m Y (by simpa using e) hm (by simpa using hX))
    | cons b X =>
      simp only [List.cons_append, List.cons.injEq] at e
      obtain ⟨rfl, e⟩ := e
      obtain ⟨X', k, Y', f, g1, g2, g3, g4, g5⟩ := ih hF X m Y e hm (by
        rw [List.getLast?_cons] at hX
        cases hx : X.getLast? with
        | none => rw [hx] at hX; simpa using hX
        | some y => rw [hx] at hX; simpa using hX) hY
      refine ⟨a :: X', k, Y', f, by rw [g1]; rfl, g2, g3, ?_, ?_⟩ <;>
      · simp only [src, List.flatMap_cons, List.length_append] at *
        omega

/-! ### All nouns -/

/-- The search for several nouns. -/
inductive Scans (u : Uni) : List (List Char) → Nat → List Atom → List Atom → List Found → Prop
  | nil (i : Nat) (B : List Atom) : Scans u [] i B B []
  | cons (p : List Char) (ps : List (List Char)) (i : Nat) (B B1 B' : List Atom) (new new' : List Found) : Scan u p none i B B1 new → Scans u ps (i + new.length) B1 B' new' →
      Scans u (p :: ps) i B B' (new ++ new')

/-- Where the text has `m`, the atoms have a noun that overlaps it, or they have `m`. -/
theorem window {F : List Found} {y : List Char} : ∀ (B : List Atom) (m : List Char), m ≠ [] → (∀ j, .noun j ∈ B → (Atom.noun j).source F ≠ []) →
    src F B = m ++ y → (∃ X j Y, B = X ++ .noun j :: Y ∧ (src F X).length < m.length) ∨ ∃ Y, B = m.map .char ++ Y ∧ src F Y = y
  | [], m, hm, _, e => by simp [src, hm] at e
  | .noun j :: B, m, hm, hB, e => .inl ⟨[], j, B, rfl, by simpa [src] using List.length_pos_iff.2 hm⟩
  | .char c :: B, [], hm, hB, e => absurd rfl hm
  | .char c :: B, d :: m, hm, hB, e => by
    simp only [src, List.flatMap_cons, Atom.source, List.cons_append, List.nil_append, List.cons.injEq] at e
    obtain ⟨rfl, e⟩ := e
    by_cases hm' : m = []
    · subst hm'
      exact .inr ⟨B, rfl, e⟩
    · rcases window B m hm' (fun j hj => hB j (by simp [hj])) e with ⟨X, j, Y, e1, h⟩ | ⟨Y, e1, h⟩
      · exact .inl ⟨.char c :: X, j, Y, by rw [e1]; rfl, by
          simp only [src, List.flatMap_cons, Atom.source, List.length_append, List.length_cons, List.length_nil] at h ⊢
          omega⟩
      · exact .inr ⟨Y, by rw [e1]; rfl, h⟩

theorem window_at {F : List Found} {m y : List Char} (hm : m ≠ []) : ∀ (B : List Atom) (x : List Char),
    (∀ j, .noun j ∈ B → (Atom.noun j).source F ≠ []) → src F B = x ++ (m ++ y) →
    (∃ X j Y, B = X ++ .noun j :: Y ∧ (src F X).length < x.length + m.length ∧
      x.length < (src F X).length + ((Atom.noun j).source F).length) ∨
    ∃ X Y, B = X ++ m.map .char ++ Y ∧ src F X = x ∧ src F Y = y
  | [], x, _, e => by simp [src, hm] at e
  | a :: B, x, hB, e => by
    have step : ∀ x2, x = a.source F ++ x2 → src F B = x2 ++ (m ++ y) → _ := fun x2 hx h =>
      window_at hm B x2 (fun j hj => hB j (by simp [hj])) h
    have done : ∀ x2, x = a.source F ++ x2 → src F B = x2 ++ (m ++ y) →
        (∃ X j Y, a :: B = X ++ .noun j :: Y ∧ (src F X).length < x.length + m.length ∧
          x.length < (src F X).length + ((Atom.noun j).source F).length) ∨
        ∃ X Y, a :: B = X ++ m.map .char ++ Y ∧ src F X = x ∧ src F Y = y := by
      intro x2 hx h
      rcases step x2 hx h with ⟨X, j, Y, e1, h1, h2⟩ | ⟨X, Y, e1, h1, h2⟩
      · refine .inl ⟨a :: X, j, Y, by rw [e1]; rfl, ?_, ?_⟩ <;>
        · subst hx
          simp only [src, List.flatMap_cons, List.length_append] at *
          omega
      · refine .inr ⟨a :: X, Y, by rw [e1]; rfl, ?_, h2⟩
        simp only [src, List.flatMap_cons] at h1 ⊢
        rw [h1, hx]
    have e' : a.source F ++ src F B = x ++ (m ++ y) := by simpa [src] using e
    cases a with
    | char c =>
      cases x with
      | nil =>
        rcases window (.char c :: B) m hm hB (by simpa using e) with ⟨X, j, Y, e1, h1⟩ | ⟨Y, e1, h1⟩
        · refine .inl ⟨X, j, Y, e1, by simpa using h1, ?_⟩
          have := List.length_pos_iff.2 (hB j (by rw [e1]; simp))
          simp only [List.length_nil]
          omega
        · exact .inr ⟨[], Y, by simpa using e1, rfl, h1⟩
      | cons d x =>
        simp only [Atom.source, List.cons_append, List.nil_append, List.cons.injEq] at e'
        exact done x (by simp [Atom.source, e'.1]) e'.2
    | noun j =>
      rcases Nat.lt_or_ge x.length ((Atom.noun j).source F).length with hl | hl
      · refine .inl ⟨[], j, B, rfl, ?_, by simpa [src] using hl⟩
        have := List.length_pos_iff.2 hm
        simp only [src, List.flatMap_nil, List.length_nil]
        omega
      · rw [List.append_eq_append_iff] at e'
        rcases e' with ⟨x2, h1, h2⟩ | ⟨z, h1, h2⟩
        · exact done x2 h1 h2
        · have : z = [] := by
            have := congrArg List.length h1
            simp at this
            exact List.length_eq_zero_iff.1 (by omega)
          subst this
          exact done [] (by simpa using h1.symm) (by simpa using h2.symm)

/-- What holds after the search for the nouns `ps`. -/
structure Done (u : Uni) (F : List Found) (s : List Char) (ps : List (List Char)) (B : List Atom) : Prop where
  source : src F B = s
  sound : AllOk u F (· ∈ ps) none B
  complete : ∀ p ∈ ps, ∀ x m y, s = x ++ (m ++ y) → IsPhrase u p m → Edge u x.getLast? → Edge u y.head? →
    ∃ a i b f, B = a ++ .noun i :: b ∧ F[i]? = some f ∧ byteLen p ≤ byteLen f.noun ∧
      (src F a).length < x.length + m.length ∧ x.length < (src F a).length + (f.source ++ f.own).length

theorem Done.step {s : List Char} {ps : List (List Char)} (h : Done u F s ps B) (hne : ∀ q ∈ ps ++ [p], ∀ m, IsPhrase u q m → m ≠ [])
    (hs : Scan u p none i B R new) (hF : ∀ k f, new[k]? = some f → F[i + k]? = some f) (hl : ∀ q ∈ ps, byteLen p ≤ byteLen q) :
    Done u F s (ps ++ [p]) R where
  source := by rw [src_scan hs hF, h.source]
  sound := allOk_scan hs hF (by simp) (fun h => h) (h.sound.mono fun x hx => by simp [hx])
  complete q hq x m y e hm hx hy := by
    have keep : (∃ a i b f, B = a ++ .noun i :: b ∧ F[i]? = some f ∧ byteLen q ≤ byteLen f.noun ∧
        (src F a).length < x.length + m.length ∧ x.length < (src F a).length + (f.source ++ f.own).length) →
        ∃ a i b f, R = a ++ .noun i :: b ∧ F[i]? = some f ∧ byteLen q ≤ byteLen f.noun ∧
        (src F a).length < x.length + m.length ∧ x.length < (src F a).length + (f.source ++ f.own).length := by
      rintro ⟨a, j, b, f, h1, h2, h3, h4, h5⟩
      obtain ⟨a', b', k1, k2⟩ := scan_keeps hs hF a j b h1
      exact ⟨a', j, b', f, k1, h2, h3, by rw [k2]; exact h4, by rw [k2]; exact h5⟩
    rcases List.mem_append.1 hq with hq' | hq'
    · exact keep (h.complete q hq' x m y e hm hx hy)
    · have hqp : q = p := by simpa using hq'
      subst hqp
      have hsrc : ∀ j, .noun j ∈ B → (Atom.noun j).source F ≠ [] := by
        intro j hj
        obtain ⟨X, Y, rfl⟩ := List.append_of_mem hj
        obtain ⟨f, h1, h2, h3, _⟩ := h.sound.split
        have := hne f.noun (by simp [h2]) _ h3
        simp [Atom.source, h1, this]
      rcases window_at (hne q hq m hm) B x hsrc (by rw [h.source, e]) with ⟨X, j, Y, e1, h1, h2⟩ | ⟨X, Y, e1, h1, h2⟩
      · apply keep
        have hs := h.sound
        rw [e1] at hs
        obtain ⟨f, g1, g2, g3, _⟩ := hs.split
        exact ⟨X, j, Y, f, e1, g1, hl _ g2, h1, by simpa [Atom.source, g1] using h2⟩
      · obtain ⟨X', k, Y', f, g1, g2, g3, g4, g5⟩ := scan_complete (hne q hq) hs hF X m Y e1 hm (by
          intro d hd
          rw [Option.or_none] at hd
          rw [List.getLast?_eq_some_iff] at hd
          obtain ⟨X0, rfl⟩ := hd
          refine hx d ?_
          rw [← h1]
          simp [src, Atom.source]) (by
          intro d hd
          cases Y with
          | nil => simp at hd
          | cons a Y =>
            simp only [List.head?_cons, Option.some.injEq] at hd
            subst hd
            refine hy d ?_
            rw [← h2]
            simp [src, Atom.source])
        refine ⟨X', k, Y', f, g1, g2, by rw [g3]; exact Nat.le_refl _, ?_, ?_⟩
        · rw [h1] at g4; exact g4
        · rw [h1] at g5; exact g5

theorem Done.steps {s : List Char} {ps : List (List Char)} (hs : Scans u ps i B R new) : ∀ {qs : List (List Char)}, Done u F s qs B →
    (∀ p ∈ qs ++ ps, ∀ m, IsPhrase u p m → m ≠ []) → (∀ k f, new[k]? = some f → F[i + k]? = some f) →
    (qs ++ ps).Pairwise (fun a b => byteLen b ≤ byteLen a) → Done u F s (qs ++ ps) R := by
  induction hs with
  | nil i B => intro qs h _ _ _; simpa using h
  | cons p ps i B B1 B' new new' h1 h2 ih =>
    intro qs h hne hF hl
    have hd := h.step (p := p) (fun q hq => hne q (by
        rcases List.mem_append.1 hq with h | h
        · simp [h]
        · rw [List.mem_singleton.1 h]; simp)) h1
      (fun k f hk => hF k f (by
        rw [List.getElem?_append_left (List.getElem?_eq_some_iff.1 hk).1]; exact hk))
      (fun q hq => (List.pairwise_append.1 hl).2.2 q hq p (by simp))
    have := ih hd (by simpa using hne) (fun k f hk => by
      have := hF (new.length + k) f (by rw [List.getElem?_append_right (by omega)]; simpa using hk)
      rwa [← Nat.add_assoc] at this) (by simpa using hl)
    simpa using this

theorem done_plain (u : Uni) (F : List Found) (s : List Char) : Done u F s [] (s.map .char) where
  source := src_chars F s
  sound := by
    have : ∀ (s : List Char) prev, AllOk u F (· ∈ ([] : List (List Char))) prev (s.map Atom.char) := by
      intro s
      induction s with
      | nil => exact fun _ => trivial
      | cons c s ih => exact fun _ => ⟨fun i hi => by simp at hi, ih _⟩
    exact this s none
  complete := by simp

end

/-! ### The code -/

section
variable {u : Uni} {f : Char → List Char} (hf : LetterFold u f)

theorem isPhrase_iff {p m : List Char} :
    IsPhrase u p m ↔ matchesNoun u m (u.strLower p) = true ∧ m.length = (u.strLower p).length := by
  simp only [IsPhrase, straightened, matchesNoun, decide_eq_true_eq]

include hf in
theorem isPhrase_fold (hq : f '’' = f '\'') {p m : List Char} (h : IsPhrase u p m) : foldCase f m = foldCase f p := by
  rw [matches_fold hf hq (isPhrase_iff.1 h).1, hf.lower]

theorem encAtoms_append (A B : List Atom) : encAtoms (A ++ B) = encAtoms A ++ encAtoms B := List.flatMap_append

theorem encAtoms_chars (cs : List Char) : encAtoms (cs.map .char) = cs := by
  induction cs with
  | nil => rfl
  | cons c cs ih => simp only [encAtoms] at ih ⊢; rw [List.map_cons, List.flatMap_cons, ih]; rfl

theorem encAtoms_take : ∀ (m : List Char) (B : List Atom) (after : List Char), '�' ∉ m → encAtoms B = m ++ after →
    ∃ Y, B = m.map .char ++ Y ∧ encAtoms Y = after
  | [], B, after, _, e => ⟨B, rfl, e⟩
  | c :: m, [], after, _, e => by simp [encAtoms] at e
  | c :: m, .noun j :: B, after, hm, e => by
    simp only [encAtoms, List.flatMap_cons, encAtom, placeholder, List.cons_append, List.cons.injEq] at e
    exact absurd (by rw [← e.1]; simp) hm
  | c :: m, .char d :: B, after, hm, e => by
    simp only [encAtoms, List.flatMap_cons, encAtom, List.cons_append, List.nil_append, List.cons.injEq] at e
    obtain ⟨rfl, e⟩ := e
    obtain ⟨Y, h1, h2⟩ := encAtoms_take m B after (fun h => hm (by simp [h])) e
    exact ⟨Y, by rw [h1]; rfl, h2⟩

include hf in
theorem encAtoms_head (Y : List Atom) : ((encAtoms Y).head?.any u.alphanumeric = true) ↔ ¬ AtomEdge u Y.head? := by
  cases Y with
  | nil => simp [encAtoms, AtomEdge]
  | cons a Y =>
    cases a with
    | char c => simp [encAtoms, encAtom, AtomEdge]
    | noun j => simp [encAtoms, encAtom, placeholder, AtomEdge, hf.markClass]

theorem replaceNoun_through {canonical key : List Char} (i : Nat) (t : List Char) : ∀ (x : List Char) (fuel : Nat) (prev : Option Char),
    x.length ≤ fuel → (∀ y z, x = y ++ z → z ≠ [] → matchesNoun u ((z ++ t).take key.length) key = false) →
    replaceNoun u canonical key fuel prev i (x ++ t) =
      (x ++ (replaceNoun u canonical key (fuel - x.length) (x.getLast?.or prev) i t).1,
        (replaceNoun u canonical key (fuel - x.length) (x.getLast?.or prev) i t).2)
  | [], fuel, prev, _, _ => by simp
  | c :: x, 0, prev, hl, _ => by simp at hl
  | c :: x, fuel + 1, prev, hl, hm => by
    by_cases hs : (c :: x ++ t).length < key.length
    · have ht : t.length < key.length := by simp at hs; omega
      rw [replaceNoun_short _ _ _ _ hs, replaceNoun_short _ _ _ _ ht]
    · have e : replaceNoun u canonical key (fuel + 1) prev i (c :: x ++ t) =
          (c :: (replaceNoun u canonical key fuel (some c) i (x ++ t)).1,
            (replaceNoun u canonical key fuel (some c) i (x ++ t)).2) := by
        have h0 := hm [] (c :: x) rfl (by simp)
        rw [List.cons_append] at h0 hs ⊢
        rw [replaceNoun, if_neg (by rw [List.length_take]; omega), h0]
        rfl
      rw [e, replaceNoun_through i t x fuel (some c) (by simpa using hl) (fun y z e hz => hm (c :: y) z (by rw [e]; rfl) hz)]
      have hlast : (c :: x).getLast?.or prev = x.getLast?.or (some c) := by
        rw [List.getLast?_cons]
        cases x.getLast? <;> rfl
      rw [hlast, show fuel + 1 - (c :: x).length = fuel - x.length by simp]
      rfl

theorem possessiveAt_atoms {Y : List Atom} (he : AtomEdge u Y.head?) :
    ∃ rest, Y = (possessiveAt (encAtoms Y)).map .char ++ rest ∧ OwnAt u (possessiveAt (encAtoms Y)) rest ∧
      (encAtoms Y).drop (possessiveAt (encAtoms Y)).length = encAtoms rest := by
  have key : ∀ q, q ∈ ['\'', '’'] → ∀ t, encAtoms Y = q :: 's' :: t → ∃ rest, Y = [q, 's'].map .char ++ rest ∧ t = encAtoms rest := by
    intro q hq t e
    obtain ⟨rest, h1, h2⟩ := encAtoms_take [q, 's'] Y t (by
      have : q ≠ '�' := by rintro rfl; revert hq; decide
      simp [Ne.symm this]) e
    exact ⟨rest, h1, h2.symm⟩
  unfold possessiveAt
  split
  · rename_i t e
    obtain ⟨rest, h1, h2⟩ := key '\'' (by simp) t e
    exact ⟨rest, h1, .inl rfl, by rw [← h2, e]; rfl⟩
  · rename_i t e
    obtain ⟨rest, h1, h2⟩ := key '’' (by simp) t e
    exact ⟨rest, h1, .inr (.inl rfl), by rw [← h2, e]; rfl⟩
  · rename_i h1 h2
    refine ⟨Y, rfl, .inr (.inr ⟨rfl, he, ?_⟩), rfl⟩
    intro q hq ⟨r, hr⟩
    subst hr
    simp only [List.mem_cons, List.not_mem_nil, or_false] at hq
    rcases hq with rfl | rfl
    · exact h1 (encAtoms r) rfl
    · exact h2 (encAtoms r) rfl

include hf in
theorem replaceNoun_scan (hq : f '’' = f '\'') {p : List Char} (hm : '�' ∉ p) (hs : ' ' ∈ p) : ∀ (fuel : Nat) (pc : Option Char)
    (prev : Option Atom) (i : Nat) (B : List Atom), (encAtoms B).length < fuel → (pc.any u.alphanumeric = true ↔ ¬ AtomEdge u prev) →
    ∃ R new, Scan u p prev i B R new ∧ replaceNoun u p (u.strLower p) fuel pc i (encAtoms B) =
      (encAtoms R, new.mapIdx fun k f => (placeholder (i + k), f.noun ++ f.own)) := by
  have hkm : '�' ∉ u.strLower p := by rw [← foldCase_mark hf, hf.lower, foldCase_mark hf]; exact hm
  have hks : ' ' ∈ u.strLower p := by rw [← foldCase_space hf, hf.lower, foldCase_space hf]; exact hs
  have sub_ok : ∀ a, matchesNoun u a (u.strLower p) = true → '�' ∉ a ∧ ' ' ∈ a := by
    intro a h
    have e := matches_fold hf hq h
    refine ⟨?_, ?_⟩
    · rw [← foldCase_mark hf, e, foldCase_mark hf]; exact hkm
    · rw [← foldCase_space hf, e, foldCase_space hf]; exact hks
  intro fuel
  induction fuel using Nat.strongRecOn with
  | ind fuel ih =>
    intro pc prev i B hl hpc
    by_cases hshort : (encAtoms B).length < (u.strLower p).length
    · refine ⟨B, [], .stop _ _ _ ?_, replaceNoun_short _ _ _ _ hshort⟩
      intro X m Y e h
      have h2 := (isPhrase_iff.1 h).2
      rw [e, encAtoms_append, encAtoms_append, encAtoms_chars] at hshort
      simp at hshort
      omega
    · cases B with
      | nil =>
        simp only [encAtoms, List.flatMap_nil, List.length_nil] at hshort
        exact absurd (List.length_pos_iff.2 (List.ne_nil_of_mem hks)) hshort
      | cons a B =>
        cases a with
        | noun j =>
          have e0 : encAtoms (.noun j :: B) = placeholder j ++ encAtoms B := rfl
          have hlen : 0 < (placeholder j).length := List.length_pos_iff.2 (placeholder_ne j)
          rw [e0] at hl ⊢
          rw [List.length_append] at hl
          have hthru := replaceNoun_through (u := u) (canonical := p) (key := u.strLower p) i (encAtoms B) (placeholder j) fuel pc (by omega) (by
            intro y z e hz
            apply Bool.eq_false_iff.2
            intro hmt
            obtain ⟨h1, h2⟩ := sub_ok _ hmt
            have hmz : '�' ∈ z := by
              obtain ⟨ds, e', _⟩ := placeholder_digits j
              rw [e'] at e
              have := congrArg List.getLast? e
              rw [List.getLast?_concat, List.getLast?_append] at this
              cases hl : z.getLast? with
              | none => exact absurd (List.getLast?_eq_none_iff.1 hl) hz
              | some w =>
                rw [hl, Option.some_or, Option.some.injEq] at this
                exact this ▸ List.mem_of_getLast? hl
            have hzs : ' ' ∉ z := fun h => cut_placeholder (c := ' ') ⟨by decide, by decide⟩ j (by rw [e]; simp [h])
            rw [List.take_append] at h1 h2
            rcases List.mem_append.1 h2 with h | h
            · exact hzs (List.mem_of_mem_take h)
            · have : z.length < (u.strLower p).length := by
                rcases Nat.lt_or_ge z.length (u.strLower p).length with hl | hl
                · exact hl
                · rw [Nat.sub_eq_zero_of_le hl] at h; simp at h
              rw [List.take_of_length_le (by omega)] at h1
              exact h1 (List.mem_append.2 (.inl hmz)))
          have hlast : (placeholder j).getLast?.or pc = some '�' := by
            obtain ⟨ds, e', _⟩ := placeholder_digits j
            rw [e', List.getLast?_concat]; rfl
          rw [hlast] at hthru
          obtain ⟨R, new, h1, h2⟩ := ih (fuel - (placeholder j).length) (by omega) (some '�') (some (.noun j)) i B (by omega)
            (by simp [hf.markClass, AtomEdge])
          refine ⟨.noun j :: R, new, .skip _ _ _ _ _ _ ?_ h1, ?_⟩
          · intro m Y e h
            cases m with
            | nil =>
              have := (isPhrase_iff.1 h).2
              exact absurd (List.length_pos_iff.2 (List.ne_nil_of_mem hks)) (by rw [← this]; simp)
            | cons c m => simp at e
          · rw [hthru, h2]; rfl
        | char c =>
          have e0 : encAtoms (.char c :: B) = c :: encAtoms B := rfl
          cases fuel with
          | zero => omega
          | succ fuel =>
            rw [e0] at hl hshort ⊢
            rw [replaceNoun, if_neg (by rw [List.length_take]; omega)]
            have hcs : c :: encAtoms B = (c :: encAtoms B).take (u.strLower p).length ++ (c :: encAtoms B).drop (u.strLower p).length :=
              (List.take_append_drop ..).symm
            have hsl : ((c :: encAtoms B).take (u.strLower p).length).length = (u.strLower p).length := by
              rw [List.length_take]; omega
            generalize (c :: encAtoms B).take (u.strLower p).length = sub at hcs hsl
            generalize (c :: encAtoms B).drop (u.strLower p).length = after at hcs
            split
            · rename_i hmt
              simp only [Bool.and_eq_true, Bool.not_eq_true'] at hmt
              obtain ⟨⟨hmt, hp⟩, ha⟩ := hmt
              obtain ⟨h1, h2⟩ := sub_ok _ hmt
              obtain ⟨Y, e1, e2⟩ := encAtoms_take sub (.char c :: B) after h1 (by rw [e0, hcs])
              have hYe : AtomEdge u Y.head? := by
                apply Classical.byContradiction
                intro h
                rw [← encAtoms_head hf, e2, ha] at h
                exact absurd h (by simp)
              obtain ⟨rest, g1, g2, g3⟩ := possessiveAt_atoms hYe
              rw [e2] at g1 g2 g3
              have hrl : (encAtoms rest).length < fuel := by
                rw [← g3]
                have h3 := congrArg List.length hcs
                have := List.length_pos_iff.2 (List.ne_nil_of_mem h2)
                simp at h3 hl ⊢
                omega
              obtain ⟨R, new, k1, k2⟩ := ih fuel (by omega) (some '�') (some (.noun i)) (i + 1) rest hrl (by simp [hf.markClass, AtomEdge])
              refine ⟨.noun i :: R, ⟨p, sub, possessiveAt after⟩ :: new, ?_, ?_⟩
              · rw [e1, g1]
                refine .hit _ _ _ _ _ _ _ (isPhrase_iff.2 ⟨hmt, hsl⟩) ?_ g2 k1
                apply Classical.byContradiction
                intro h
                rw [← hpc, hp] at h
                exact absurd h (by simp)
              · simp only []
                rw [g3, k2, List.mapIdx_cons]
                simp only [Nat.add_zero, Nat.add_assoc, Nat.add_comm 1]
                rfl
            · rename_i hmt
              obtain ⟨R, new, k1, k2⟩ := ih fuel (by omega) (some c) (some (.char c)) i B (by simpa using hl) (by simp [AtomEdge])
              refine ⟨.char c :: R, new, .skip _ _ _ _ _ _ ?_ k1, ?_⟩
              · intro m Y e h hpe hYe
                apply hmt
                obtain ⟨h1, h2⟩ := isPhrase_iff.1 h
                have e3 : c :: encAtoms B = m ++ encAtoms Y := by
                  rw [← e0, e, encAtoms_append, encAtoms_chars]
                have e4 := List.append_inj (hcs.symm.trans e3) (by rw [hsl, h2])
                rw [e4.1, e4.2, h1]
                have hp : pc.any u.alphanumeric = false := by
                  rw [Bool.eq_false_iff]; intro h; exact hpc.1 h hpe
                have ha : (encAtoms Y).head?.any u.alphanumeric = false := by
                  rw [Bool.eq_false_iff]; intro h; exact (encAtoms_head hf Y).1 h hYe
                rw [hp, ha]; rfl
              · simp only []
                rw [k2]; rfl

include hf in
theorem replaceNouns_scans (hq : f '’' = f '\'') : ∀ (ps : List (List Char)), (∀ p ∈ ps, '�' ∉ p ∧ ' ' ∈ p) → ∀ (i : Nat) (B : List Atom),
    ∃ R new, Scans u ps i B R new ∧ replaceNouns u (ps.map fun p => (p, u.strLower p)) i (encAtoms B) =
      (encAtoms R, new.mapIdx fun k f => (placeholder (i + k), f.noun ++ f.own))
  | [], _, i, B => ⟨B, [], .nil _ _, rfl⟩
  | p :: ps, h, i, B => by
    obtain ⟨R, new, h1, h2⟩ := replaceNoun_scan hf hq (h p (by simp)).1 (h p (by simp)).2 ((encAtoms B).length + 1) none none i B
      (by omega) (by simp [AtomEdge])
    obtain ⟨R', new', h3, h4⟩ := replaceNouns_scans hq ps (fun q hq => h q (by simp [hq])) (i + new.length) R
    refine ⟨R', new ++ new', .cons _ _ _ _ _ _ _ _ h1 h3, ?_⟩
    rw [List.map_cons, replaceNouns, h2]
    simp only [List.length_mapIdx]
    rw [h4]
    simp only [List.mapIdx_append, Nat.add_assoc, Nat.add_comm new.length]

theorem pairwise_insertByLen (x : List Char × List Char) : ∀ {l : List (List Char × List Char)},
    l.Pairwise (fun a b => byteLen b.1 ≤ byteLen a.1) → (insertByLen x l).Pairwise (fun a b => byteLen b.1 ≤ byteLen a.1)
  | [], _ => by simp [insertByLen]
  | y :: l, h => by
    rw [insertByLen]
    split
    · rename_i hl
      refine List.pairwise_cons.2 ⟨fun z hz => ?_, h⟩
      rcases List.mem_cons.1 hz with rfl | hz
      · omega
      · have := (List.pairwise_cons.1 h).1 z hz; omega
    · rename_i hl
      refine List.pairwise_cons.2 ⟨fun z hz => ?_, pairwise_insertByLen x (List.pairwise_cons.1 h).2⟩
      have : z = x ∨ z ∈ l := by
        clear h hl
        induction l with
        | nil => simpa [insertByLen] using hz
        | cons w l ih =>
          rw [insertByLen] at hz
          split at hz
          · simpa using hz
          · rcases List.mem_cons.1 hz with h | h
            · exact .inr (by simp [h])
            · rcases ih h with h | h
              · exact .inl h
              · exact .inr (by simp [h])
      rcases this with rfl | hz
      · omega
      · exact (List.pairwise_cons.1 h).1 z hz

theorem mem_insertByLen_iff {x y : List Char × List Char} : ∀ {l : List (List Char × List Char)}, y ∈ insertByLen x l ↔ y = x ∨ y ∈ l
  | [] => by simp [insertByLen]
  | z :: l => by
    rw [insertByLen]
    split
    · simp
    · rw [List.mem_cons, mem_insertByLen_iff, List.mem_cons]
      exact ⟨fun h => by rcases h with h | h | h <;> simp [h], fun h => by rcases h with h | h | h <;> simp [h]⟩

/-- The nouns of several words, longest first. -/
theorem multiwordNouns_spec (u : Uni) (n : Nouns) : ∃ ps : List (List Char), multiwordNouns u n = ps.map (fun p => (p, u.strLower p)) ∧
    (∀ p, p ∈ ps ↔ PhraseNoun u n p) ∧ ps.Pairwise (fun a b => byteLen b ≤ byteLen a) := by
  unfold multiwordNouns
  generalize hall : (n.builtin.map (·.1) ++ n.proper).filter (fun p =>
    p.contains ' ' && !(n.common.map u.strLower).contains (u.strLower p)) = all
  have hmem : ∀ p, p ∈ all ↔ PhraseNoun u n p := by
    intro p
    rw [← hall, List.mem_filter, List.mem_append, List.mem_map, PhraseNoun]
    simp only [Bool.and_eq_true, List.contains_iff_mem, Bool.not_eq_true', SameNoun]
    refine and_congr Iff.rfl (and_congr Iff.rfl ?_)
    rw [Bool.eq_false_iff]
    simp only [ne_eq, List.contains_iff_mem, List.mem_map, not_exists, not_and]
  have key : ∀ (l : List (List Char)) (acc : List (List Char × List Char)),
      (∀ x ∈ acc, x.2 = u.strLower x.1) → acc.Pairwise (fun a b => byteLen b.1 ≤ byteLen a.1) →
      (∀ x ∈ (l.map fun p => (p, u.strLower p)).foldl (fun acc x => insertByLen x acc) acc, x.2 = u.strLower x.1) ∧
      ((l.map fun p => (p, u.strLower p)).foldl (fun acc x => insertByLen x acc) acc).Pairwise (fun a b => byteLen b.1 ≤ byteLen a.1) ∧
      ∀ x, x ∈ ((l.map fun p => (p, u.strLower p)).foldl (fun acc x => insertByLen x acc) acc).map (·.1) ↔ x ∈ l ∨ x ∈ acc.map (·.1) := by
    intro l
    induction l with
    | nil => intro acc h1 h2; exact ⟨h1, h2, by simp⟩
    | cons y l ih =>
      intro acc h1 h2
      obtain ⟨g1, g2, g3⟩ := ih (insertByLen (y, u.strLower y) acc) (by
        intro x hx
        rcases mem_insertByLen_iff.1 hx with rfl | hx
        · rfl
        · exact h1 x hx) (pairwise_insertByLen _ h2)
      refine ⟨g1, g2, fun x => ?_⟩
      have : x ∈ (insertByLen (y, u.strLower y) acc).map (·.1) ↔ x = y ∨ x ∈ acc.map (·.1) := by
        simp only [List.mem_map, mem_insertByLen_iff]
        constructor
        · rintro ⟨z, rfl | hz, rfl⟩
          · exact .inl rfl
          · exact .inr ⟨z, hz, rfl⟩
        · rintro (rfl | ⟨z, hz, rfl⟩)
          · exact ⟨_, .inl rfl, rfl⟩
          · exact ⟨z, .inr hz, rfl⟩
      rw [List.map_cons, List.foldl_cons, g3, this, List.mem_cons]
      exact ⟨fun h => by rcases h with h | h | h <;> simp [h], fun h => by rcases h with (h | h) | h <;> simp [h]⟩
  obtain ⟨g1, g2, g3⟩ := key all [] (by simp) .nil
  simp only []
  generalize (all.map fun p => (p, u.strLower p)).foldl (fun acc x => insertByLen x acc) [] = res at g1 g2 g3
  refine ⟨res.map (·.1), ?_, fun p => by rw [g3, hmem]; simp, List.pairwise_map.2 g2⟩
  rw [List.map_map]
  conv => lhs; rw [← List.map_id res]
  refine List.map_congr_left fun x hx => ?_
  rw [Function.comp, ← g1 x hx]; rfl

theorem scan_found {p : List Char} {prev : Option Atom} {i : Nat} {B R : List Atom} {new : List Found} (h : Scan u p prev i B R new) :
    ∀ g ∈ new, g.noun = p ∧ '�' ∉ g.own := by
  induction h with
  | stop => simp
  | hit prev i m own rest R new h1 h2 h3 h4 ih =>
    intro g hg
    rcases List.mem_cons.1 hg with rfl | hg
    · refine ⟨rfl, ?_⟩
      show '�' ∉ own
      rcases h3 with rfl | rfl | ⟨rfl, _⟩ <;> decide
    · exact ih g hg
  | skip prev i a rest R new h1 h2 ih => exact ih

theorem scans_found {ps : List (List Char)} {i : Nat} {B R : List Atom} {new : List Found} (h : Scans u ps i B R new) :
    ∀ g ∈ new, g.noun ∈ ps ∧ '�' ∉ g.own := by
  induction h with
  | nil => simp
  | cons p ps i B B1 B' new new' h1 h2 ih =>
    intro g hg
    rcases List.mem_append.1 hg with hg | hg
    · have := scan_found h1 g hg
      exact ⟨by simp [this.1], this.2⟩
    · have := ih g hg
      exact ⟨by simp [this.1], this.2⟩

/-- The nouns of several words in a text. -/
theorem replaceNouns_phrases {n : Nouns} (hf : LetterFold u f) (hn : NounsOk f n) (hq : f '’' = f '\'') (s : List Char) :
    ∃ atoms found, replaceNouns u (multiwordNouns u n) 0 s = (encAtoms atoms, found.mapIdx fun k f => (placeholder k, f.noun ++ f.own)) ∧
      Phrases u n found atoms s ∧ ∀ g ∈ found, ' ' ∈ g.noun ++ g.own ∧ '�' ∉ g.noun ++ g.own := by
  obtain ⟨ps, h1, h2, h3⟩ := multiwordNouns_spec u n
  have hps : ∀ p ∈ ps, '�' ∉ p ∧ ' ' ∈ p := by
    intro p hp
    obtain ⟨hl, hs, _⟩ := (h2 p).1 hp
    refine ⟨?_, hs⟩
    rcases hl with ⟨b, hb, rfl⟩ | hl
    · exact hn.builtin b hb
    · exact hn.proper p hl
  obtain ⟨R, new, g1, g2⟩ := replaceNouns_scans hf hq ps hps 0 (s.map .char)
  have hd := Done.steps (F := new) g1 (done_plain u new s) (fun p hp m hm => by
    rw [List.nil_append] at hp
    have e := isPhrase_fold hf hq hm
    refine List.ne_nil_of_mem (a := ' ') ?_
    rw [← foldCase_space hf, e, foldCase_space hf]
    exact (hps p hp).2) (by simp) (by simpa using h3)
  rw [List.nil_append] at hd
  rw [encAtoms_chars] at g2
  refine ⟨R, new, by rw [h1, g2]; simp, ⟨hd.source, ?_, ?_⟩, ?_⟩
  · intro a i b e
    have := hd.sound
    rw [e] at this
    obtain ⟨g, k1, k2, k3, k4, k5⟩ := this.split
    exact ⟨g, k1, (h2 _).1 k2, k3, by simpa using k4, k5⟩
  · intro p x m y hp e hm hx hy
    exact hd.complete p ((h2 p).2 hp) x m y (by rw [e, List.append_assoc]) hm hx hy
  · intro g hg
    obtain ⟨k1, k2⟩ := scans_found g1 g hg
    have := hps _ k1
    simp [this.1, this.2, k2]

end

end Hongdown
