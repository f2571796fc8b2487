import Verif.Spec.Collect
import Verif.Lemmas.Cli
import Verif.Lemmas.Str

/-!
# Lemmas about `collectFiles`
-/

namespace Hongdown.Model

open Spec

/-! ### The patterns -/

theorem trimEnd_kept {l : List Char} {c : Char} (h : l.getLast? = some c) (hc : isWs c = false) : trimEnd l = l := by
  obtain ⟨m, rfl⟩ : ∃ m, l = m ++ [c] := by
    rcases List.eq_nil_or_concat l with rfl | ⟨m, d, rfl⟩
    · simp at h
    · simp at h; subst h; exact ⟨m, by simp⟩
  simp [trimEnd, hc]

theorem ruleOf_plain {l : List Char} (h : PlainPattern l) : ruleOf l = some ⟨false, l⟩ := by
  obtain ⟨c, h1, h2⟩ := h.ends
  have e : (if ['\\', ' '] <:+ l then l else trimEnd l) = l := by
    split
    · rfl
    · exact trimEnd_kept h1 h2
  unfold ruleOf
  rw [if_neg h.comment, e]
  match l, h.negation, h1 with
  | [], _, h1 => simp at h1
  | d :: l, h3, _ =>
    have h4 : d ≠ '!' := fun e => h3 (by rw [e]; rfl)
    split
    · rename_i e; cases e
    · rename_i e; cases e; exact absurd rfl h4
    · rfl

theorem ruleOf_negated {l : List Char} (h : ∀ c, l.getLast? = some c → isWs c = false) : ruleOf ('!' :: l) = some ⟨true, l⟩ := by
  have e : (if ['\\', ' '] <:+ '!' :: l then '!' :: l else trimEnd ('!' :: l)) = '!' :: l := by
    split
    · rfl
    · match hl : l.getLast? with
      | none =>
        rw [List.getLast?_eq_none_iff] at hl
        subst hl
        rfl
      | some c => exact trimEnd_kept (c := c) (by rw [List.getLast?_cons, hl]; rfl) (h c hl)
  unfold ruleOf
  rw [if_neg (by simp), e]
  rfl

theorem filterMap_congr_mem {α β : Type} {f g : α → Option β} : ∀ {l : List α}, (∀ x ∈ l, f x = g x) → l.filterMap f = l.filterMap g
  | [], _ => rfl
  | x :: l, h => by
    rw [List.filterMap_cons, List.filterMap_cons, h x (by simp), filterMap_congr_mem fun y hy => h y (by simp [hy])]

theorem not_escaped {l : List Char} : ¬ ['\\', ' '] <:+ trimEnd l := by
  rintro ⟨a, e⟩
  have := trimEnd_getLast l ' ' (by rw [← e]; simp)
  exact absurd this (by decide)

theorem trimEnd_twice (l : List Char) : trimEnd (trimEnd l) = trimEnd l := by
  refine trimEnd_of_getLast fun c hc => ?_
  exact trimEnd_getLast l c hc

theorem trimEnd_cons_visible {c : Char} (hc : isWs c = false) (l : List Char) : trimEnd (c :: l) = c :: trimEnd l := by
  by_cases h : trimEnd l = []
  · rw [h]
    have hw := trimEnd_eq_nil_iff.mp h
    rw [show c :: l = [c] ++ l from rfl, trimEnd_append_ws hw]
    simp [trimEnd, hc]
  · rw [show c :: l = [c] ++ l from rfl, trimEnd_append_right h]
    rfl

theorem ruleOf_trim {l : List Char} (h : ¬ ['\\', ' '] <:+ l) : ruleOf (trimEnd l) = ruleOf l := by
  unfold ruleOf
  rw [if_neg not_escaped, if_neg h, trimEnd_twice]
  match l with
  | [] => rfl
  | c :: l =>
    by_cases hc : isWs c = true
    · have h1 : c ≠ '#' := by rintro rfl; revert hc; decide
      rw [if_neg (c := (c :: l).head? = some '#') (by simpa using h1)]
      split
      · rename_i h2
        have h3 : (trimEnd (c :: l)).head? = some c := by
          obtain ⟨t, ht⟩ := trimEnd_prefix (c :: l)
          cases hm : trimEnd (c :: l) with
          | nil => rw [hm] at h2; cases h2
          | cons d m => rw [hm] at ht; cases ht; rfl
        rw [h3] at h2
        simp at h2
        exact absurd h2 h1
      · rfl
    · have hc : isWs c = false := by simpa using hc
      rw [trimEnd_cons_visible hc]
      rfl

theorem ruleOf_trim_negated {l : List Char} (h : ¬ ['\\', ' '] <:+ l) : ruleOf ('!' :: trimEnd l) = ruleOf ('!' :: l) := by
  have e : '!' :: trimEnd l = trimEnd ('!' :: l) := (trimEnd_cons_visible (by decide) l).symm
  rw [e]
  refine ruleOf_trim ?_
  rintro ⟨a, e⟩
  match a with
  | [] => simp at e
  | b :: a =>
    simp only [List.cons_append, List.cons.injEq] at e
    exact h ⟨a, e.2⟩

theorem ruleOf_blank {l : List Char} (h : ∀ c ∈ l, isWs c = true) : ruleOf l = none := by
  unfold ruleOf
  split
  · rfl
  · have h1 : ¬ ['\\', ' '] <:+ l := by
      rintro ⟨a, rfl⟩
      exact absurd (h '\\' (by simp)) (by decide)
    rw [if_neg h1, trimEnd_eq_nil_iff.mpr h]

/-- The rules of ordinary patterns. -/
def plainRules (config : Config) : List Rule :=
  config.includes.map (fun l => ⟨false, l⟩) ++ config.excludes.map (fun l => ⟨true, l⟩)

theorem filterMap_some {α β : Type} {f : α → Option β} {g : α → β} : ∀ {l : List α}, (∀ x ∈ l, f x = some (g x)) →
    l.filterMap f = l.map g
  | [], _ => rfl
  | x :: l, h => by
    rw [List.filterMap_cons, h x (by simp), List.map_cons, filterMap_some fun y hy => h y (by simp [hy])]

theorem rules_plain {config : Config} (h : PlainPatterns config) : (overrideLines config).filterMap ruleOf = plainRules config := by
  rw [overrideLines, List.filterMap_append, plainRules, filterMap_some (fun l hl => ruleOf_plain (h.includes l hl)),
    List.filterMap_map, filterMap_some (f := ruleOf ∘ ('!' :: ·)) (g := fun l => (⟨true, l⟩ : Rule))
      (fun l hl => ruleOf_negated (h.excludes l hl))]

theorem override_plain {glob : List Char → Path → Bool → Bool} {config : Config} (h : config.includes ≠ []) (p : Path) (d : Bool) :
    overrideVerdict glob (plainRules config) p d =
      if config.excludes.any (fun l => glob l p d) then .ignore
      else if config.includes.any (fun l => glob l p d) then .whitelist
      else if d then .undecided else .ignore := by
  have hne : plainRules config ≠ [] := by simp [plainRules, h]
  have hany : (plainRules config).any (!·.negated) = true := by
    obtain ⟨l, hl⟩ := List.exists_mem_of_ne_nil _ h
    rw [List.any_eq_true]
    exact ⟨⟨false, l⟩, by simp [plainRules, hl], rfl⟩
  unfold overrideVerdict
  rw [if_neg hne, hany, plainRules, List.reverse_append, List.find?_append]
  by_cases he : config.excludes.any (fun l => glob l p d) = true
  · rw [if_pos he]
    match hf : (config.excludes.map (fun l => (⟨true, l⟩ : Rule))).reverse.find? (fun r => glob r.glob p d) with
    | none =>
      rw [List.find?_eq_none] at hf
      obtain ⟨l, h1, h2⟩ := List.any_eq_true.mp he
      exact absurd h2 (hf ⟨true, l⟩ (by simp [h1]))
    | some r =>
      have hm := List.mem_of_find?_eq_some hf
      simp only [List.mem_reverse, List.mem_map] at hm
      obtain ⟨l, _, rfl⟩ := hm
      rw [hf]
      rfl
  · rw [if_neg he]
    have hf : (config.excludes.map (fun l => (⟨true, l⟩ : Rule))).reverse.find? (fun r => glob r.glob p d) = none := by
      rw [List.find?_eq_none]
      intro r hr
      simp only [List.mem_reverse, List.mem_map] at hr
      obtain ⟨l, h1, rfl⟩ := hr
      intro h2
      exact he (List.any_eq_true.mpr ⟨l, h1, h2⟩)
    rw [hf, Option.none_or]
    match hg : (config.includes.map (fun l => (⟨false, l⟩ : Rule))).reverse.find? (fun r => glob r.glob p d) with
    | none =>
      have hi : ¬ config.includes.any (fun l => glob l p d) = true := by
        intro hi
        rw [List.find?_eq_none] at hg
        obtain ⟨l, h1, h2⟩ := List.any_eq_true.mp hi
        exact absurd h2 (hg ⟨false, l⟩ (by simp [h1]))
      rw [if_neg hi, hg]
      cases d <;> rfl
    | some r =>
      have hm := List.mem_of_find?_eq_some hg
      have hp := List.find?_some hg
      simp only [List.mem_reverse, List.mem_map] at hm
      obtain ⟨l, h1, rfl⟩ := hm
      rw [if_pos (List.any_eq_true.mpr ⟨l, h1, hp⟩), hg]
      rfl

theorem not_any {α : Type} {l : List α} {f : α → Bool} : (¬ l.any f = true) ↔ ∀ x ∈ l, f x = false := by
  simp [List.any_eq_true]

theorem file_selected {s : Scan} {config : Config} (h : config.includes ≠ []) (p : Path) :
    entryVerdict s config.gitAware (plainRules config) p false ≠ .ignore ↔
      (∃ l ∈ config.includes, s.glob l p false = true) ∧ ∀ l ∈ config.excludes, s.glob l p false = false := by
  unfold entryVerdict
  rw [override_plain h]
  by_cases he : config.excludes.any (fun l => s.glob l p false) = true
  · rw [if_pos he]
    refine ⟨fun h => absurd rfl h, fun h => ?_⟩
    exact absurd he (not_any.mpr h.2)
  · rw [if_neg he]
    by_cases hi : config.includes.any (fun l => s.glob l p false) = true
    · rw [if_pos hi]
      exact ⟨fun _ => ⟨List.any_eq_true.mp hi, not_any.mp he⟩, fun _ h => by cases h⟩
    · rw [if_neg hi]
      refine ⟨fun h => absurd rfl h, fun h => ?_⟩
      exact absurd (List.any_eq_true.mpr h.1) hi

theorem dir_entered {s : Scan} {config : Config} (h : config.includes ≠ []) (q : Path) :
    entryVerdict s config.gitAware (plainRules config) q true ≠ .ignore ↔ Entered s config q := by
  unfold entryVerdict Entered
  rw [override_plain h]
  by_cases he : config.excludes.any (fun l => s.glob l q true) = true
  · rw [if_pos he]
    refine ⟨fun h => absurd rfl h, fun h => ?_⟩
    exact absurd he (not_any.mpr h.1)
  · rw [if_neg he]
    by_cases hi : config.includes.any (fun l => s.glob l q true) = true
    · rw [if_pos hi]
      exact ⟨fun _ => ⟨not_any.mp he, .inl (List.any_eq_true.mp hi)⟩, fun _ h => by cases h⟩
    · rw [if_neg hi, if_pos rfl]
      have e : (Verdict.undecided.or ((s.dotIgnore q true).or (if config.gitAware then s.gitIgnore q true else .undecided)) = .ignore) ↔
          RuledOut s config q := by
        unfold RuledOut
        cases s.dotIgnore q true <;> cases s.gitIgnore q true <;> cases config.gitAware <;> simp [Verdict.or]
      rw [ne_eq, e]
      exact ⟨fun h => ⟨not_any.mp he, .inr h⟩, fun h => h.2.resolve_left fun h' => hi (List.any_eq_true.mpr h')⟩

/-! ### The walk -/

/-- Every directory on the way from `dir` to `dir ++ p` is entered. -/
def Way (v : Path → Bool → Verdict) (dir p : Path) : Prop :=
  ∀ q r, p = q ++ r → q ≠ [] → r ≠ [] → v (dir ++ q) true ≠ .ignore

theorem way_single (v : Path → Bool → Verdict) (dir : Path) (n : List Char) : Way v dir [n] := by
  intro q r e hq hr
  match q, hq with
  | a :: q, _ =>
    simp at e
    exact absurd e.2.2 hr

theorem way_cons {v : Path → Bool → Verdict} {dir : Path} {n : List Char} {p : Path} (hp : p ≠ []) :
    Way v dir (n :: p) ↔ v (dir ++ [n]) true ≠ .ignore ∧ Way v (dir ++ [n]) p := by
  constructor
  · intro h
    refine ⟨h [n] p rfl (by simp) hp, fun q r e hq hr => ?_⟩
    have := h (n :: q) r (by rw [e]; rfl) (by simp) hr
    simpa using this
  · intro h q r e hq hr
    match q, hq with
    | a :: q, _ =>
      simp only [List.cons_append, List.cons.injEq] at e
      obtain ⟨rfl, e⟩ := e
      by_cases hq' : q = []
      · subst hq'; exact h.1
      · have := h.2 q r e hq' hr
        simpa using this

theorem fileAt_ne {es : List Entry} {p : Path} (h : FileAt es p) : p ≠ [] := by
  cases h <;> simp

theorem fileAt_cons {e : Entry} {es : List Entry} {p : Path} : FileAt (e :: es) p ↔ FileAt [e] p ∨ FileAt es p := by
  constructor
  · intro h
    cases h with
    | here h =>
      rcases List.mem_cons.mp h with rfl | h
      · exact .inl (.here (by simp))
      · exact .inr (.here h)
    | deep h h' =>
      rcases List.mem_cons.mp h with rfl | h
      · exact .inl (.deep (by simp) h')
      · exact .inr (.deep h h')
  · rintro (h | h)
    · cases h with
      | here h => exact .here (by simp at h; simp [h])
      | deep h h' => exact .deep (by simp at h; simp [h]) h'
    · cases h with
      | here h => exact .here (List.mem_cons_of_mem _ h)
      | deep h h' => exact .deep (List.mem_cons_of_mem _ h) h'

theorem unreadableAt_ne {es : List Entry} {p : Path} (h : UnreadableAt es p) : p ≠ [] := by
  cases h <;> simp

theorem unreadableAt_cons {e : Entry} {es : List Entry} {p : Path} :
    UnreadableAt (e :: es) p ↔ UnreadableAt [e] p ∨ UnreadableAt es p := by
  constructor
  · intro h
    cases h with
    | here h =>
      rcases List.mem_cons.mp h with rfl | h
      · exact .inl (.here (by simp))
      · exact .inr (.here h)
    | deep h h' =>
      rcases List.mem_cons.mp h with rfl | h
      · exact .inl (.deep (by simp) h')
      · exact .inr (.deep h h')
  · rintro (h | h)
    · cases h with
      | here h => exact .here (by simp at h; simp [h])
      | deep h h' => exact .deep (by simp at h; simp [h]) h'
    · cases h with
      | here h => exact .here (List.mem_cons_of_mem _ h)
      | deep h h' => exact .deep (List.mem_cons_of_mem _ h) h'

/-- What a walk finds. -/
def Finds (v : Path → Bool → Verdict) (dir : Path) (es : List Entry) (ps : List Path) : Prop :=
  ∀ x, x ∈ ps ↔ ∃ p, FileAt es p ∧ x = dir ++ p ∧ v x false ≠ .ignore ∧ Way v dir p

mutual

theorem visit_finds (v : Path → Bool → Verdict) : ∀ (e : Entry) (dir : Path) (ps : List Path), visit v dir e = some ps →
    Finds v dir [e] ps
  | .file n, dir, ps, h => by
    simp only [visit, Option.some.injEq] at h
    subst h
    intro x
    constructor
    · intro hx
      split at hx
      · simp at hx
      · rename_i hv
        simp at hx
        subst hx
        exact ⟨[n], .here (by simp), rfl, hv, way_single v dir n⟩
    · rintro ⟨p, hp, rfl, hv, _⟩
      cases hp with
      | here hp =>
        simp at hp
        subst hp
        rw [if_neg hv]
        simp
      | deep hp _ => simp at hp
  | .dir n es, dir, ps, h => by
    rw [visit] at h
    intro x
    split at h
    · rename_i hv
      cases h
      constructor
      · intro hx; cases hx
      · rintro ⟨p, hp, rfl, _, hw⟩
        cases hp with
        | here hp => simp at hp
        | deep hp hp' =>
          simp at hp
          obtain ⟨rfl, rfl⟩ := hp
          exact absurd hv ((way_cons (fileAt_ne hp')).mp hw).1
    · rename_i hv
      rw [visitAll_finds v es (dir ++ [n]) ps h x]
      constructor
      · rintro ⟨p, hp, rfl, h1, h2⟩
        exact ⟨n :: p, .deep (by simp) hp, by simp, h1, (way_cons (fileAt_ne hp)).mpr ⟨hv, h2⟩⟩
      · rintro ⟨p, hp, rfl, h1, h2⟩
        cases hp with
        | here hp => simp at hp
        | deep hp hp' =>
          simp at hp
          obtain ⟨rfl, rfl⟩ := hp
          exact ⟨_, hp', by simp, h1, ((way_cons (fileAt_ne hp')).mp h2).2⟩
  | .other n, dir, ps, h => by
    simp only [visit, Option.some.injEq] at h
    subst h
    intro x
    refine ⟨fun hx => (by cases hx), ?_⟩
    rintro ⟨p, hp, _⟩
    cases hp with
    | here hp => simp at hp
    | deep hp _ => simp at hp
  | .unreadable n, dir, ps, h => by
    rw [visit] at h
    split at h
    · cases h
      intro x
      refine ⟨fun hx => (by cases hx), ?_⟩
      rintro ⟨p, hp, _⟩
      cases hp with
      | here hp => simp at hp
      | deep hp _ => simp at hp
    · cases h

theorem visitAll_finds (v : Path → Bool → Verdict) : ∀ (es : List Entry) (dir : Path) (ps : List Path), visitAll v dir es = some ps →
    Finds v dir es ps
  | [], dir, ps, h => by
    rw [visitAll] at h
    cases h
    intro x
    refine ⟨fun hx => (by cases hx), ?_⟩
    rintro ⟨p, hp, _⟩
    cases hp with
    | here hp => cases hp
    | deep hp _ => cases hp
  | e :: es, dir, ps, h => by
    rw [visitAll] at h
    split at h
    · cases h
    · rename_i qs hq
      rw [Option.map_eq_some_iff] at h
      obtain ⟨rs, hr, rfl⟩ := h
      intro x
      rw [List.mem_append, visit_finds v e dir qs hq x, visitAll_finds v es dir rs hr x]
      constructor
      · rintro (⟨p, hp, h⟩ | ⟨p, hp, h⟩)
        · exact ⟨p, fileAt_cons.mpr (.inl hp), h⟩
        · exact ⟨p, fileAt_cons.mpr (.inr hp), h⟩
      · rintro ⟨p, hp, h⟩
        rcases fileAt_cons.mp hp with hp | hp
        · exact .inl ⟨p, hp, h⟩
        · exact .inr ⟨p, hp, h⟩

end

/-- A directory that cannot be read is reached. -/
def Stuck (v : Path → Bool → Verdict) (dir : Path) (es : List Entry) : Prop :=
  ∃ p, UnreadableAt es p ∧ v (dir ++ p) true ≠ .ignore ∧ Way v dir p

theorem stuck_cons {v : Path → Bool → Verdict} {dir : Path} {e : Entry} {es : List Entry} :
    Stuck v dir (e :: es) ↔ Stuck v dir [e] ∨ Stuck v dir es := by
  constructor
  · rintro ⟨p, hp, h⟩
    rcases unreadableAt_cons.mp hp with hp | hp
    · exact .inl ⟨p, hp, h⟩
    · exact .inr ⟨p, hp, h⟩
  · rintro (⟨p, hp, h⟩ | ⟨p, hp, h⟩)
    · exact ⟨p, unreadableAt_cons.mpr (.inl hp), h⟩
    · exact ⟨p, unreadableAt_cons.mpr (.inr hp), h⟩

mutual

theorem visit_stuck (v : Path → Bool → Verdict) : ∀ (e : Entry) (dir : Path), visit v dir e = none ↔ Stuck v dir [e]
  | .file n, dir => by
    refine ⟨fun h => by simp [visit] at h, ?_⟩
    rintro ⟨p, hp, _⟩
    cases hp with
    | here hp => simp at hp
    | deep hp _ => simp at hp
  | .dir n es, dir => by
    rw [visit]
    split
    · rename_i hv
      refine ⟨fun h => (by cases h), ?_⟩
      rintro ⟨p, hp, _, hw⟩
      cases hp with
      | here hp => simp at hp
      | deep hp hp' =>
        simp at hp
        obtain ⟨rfl, rfl⟩ := hp
        exact absurd hv ((way_cons (unreadableAt_ne hp')).mp hw).1
    · rename_i hv
      rw [visitAll_stuck v es (dir ++ [n])]
      constructor
      · rintro ⟨p, hp, h1, h2⟩
        exact ⟨n :: p, .deep (by simp) hp, by simpa using h1, (way_cons (unreadableAt_ne hp)).mpr ⟨hv, h2⟩⟩
      · rintro ⟨p, hp, h1, h2⟩
        cases hp with
        | here hp => simp at hp
        | deep hp hp' =>
          simp at hp
          obtain ⟨rfl, rfl⟩ := hp
          exact ⟨_, hp', by simpa using h1, ((way_cons (unreadableAt_ne hp')).mp h2).2⟩
  | .other n, dir => by
    refine ⟨fun h => by simp [visit] at h, ?_⟩
    rintro ⟨p, hp, _⟩
    cases hp with
    | here hp => simp at hp
    | deep hp _ => simp at hp
  | .unreadable n, dir => by
    rw [visit]
    split
    · rename_i hv
      refine ⟨fun h => (by cases h), ?_⟩
      rintro ⟨p, hp, h, _⟩
      cases hp with
      | here hp =>
        simp at hp
        subst hp
        exact absurd hv h
      | deep hp _ => simp at hp
    · rename_i hv
      exact ⟨fun _ => ⟨[n], .here (by simp), hv, way_single v dir n⟩, fun _ => rfl⟩

theorem visitAll_stuck (v : Path → Bool → Verdict) : ∀ (es : List Entry) (dir : Path), visitAll v dir es = none ↔ Stuck v dir es
  | [], dir => by
    refine ⟨fun h => by simp [visitAll] at h, ?_⟩
    rintro ⟨p, hp, _⟩
    cases hp with
    | here hp => cases hp
    | deep hp _ => cases hp
  | e :: es, dir => by
    rw [visitAll, stuck_cons, ← visit_stuck v e dir, ← visitAll_stuck v es dir]
    cases h : visit v dir e with
    | none => simp
    | some ps => simp

end

/-! ### Each file once -/

theorem tree_cons {e : Entry} {es : List Entry} (h : Tree (e :: es)) :
    Tree es ∧ '/' ∉ entryName e ∧ entryName e ∉ es.map entryName ∧ ∀ n sub, e = .dir n sub → Tree sub := by
  cases h with
  | mk names slash below =>
    rw [List.map_cons, List.nodup_cons] at names
    exact ⟨⟨names.2, fun x hx => slash x (List.mem_cons_of_mem _ hx), fun n sub hx => below n sub (List.mem_cons_of_mem _ hx)⟩,
      slash e (by simp), names.1, fun n sub h => below n sub (by simp [h])⟩

theorem fileAt_head {es : List Entry} {p : Path} (h : FileAt es p) : ∃ e ∈ es, ∃ r, p = entryName e :: r := by
  cases h with
  | here h => exact ⟨_, h, [], rfl⟩
  | deep h _ => exact ⟨_, h, _, rfl⟩

theorem fileAt_slash {es : List Entry} {p : Path} (h : FileAt es p) : Tree es → ∀ n ∈ p, '/' ∉ n := by
  induction h with
  | here h =>
    intro ht n hn
    cases ht with
    | mk names slash below =>
      simp at hn
      subst hn
      exact slash _ h
  | deep h _ ih =>
    intro ht n hn
    cases ht with
    | mk names slash below =>
      rcases List.mem_cons.mp hn with rfl | hn
      · exact slash _ h
      · exact ih (below _ _ h) n hn

mutual

theorem visit_nodup (v : Path → Bool → Verdict) : ∀ (e : Entry) (dir : Path) (ps : List Path), visit v dir e = some ps →
    (∀ n sub, e = .dir n sub → Tree sub) → ps.Nodup
  | .file n, dir, ps, h, _ => by
    simp only [visit, Option.some.injEq] at h
    subst h
    split <;> simp
  | .dir n es, dir, ps, h, ht => by
    rw [visit] at h
    split at h
    · cases h; exact List.nodup_nil
    · exact visitAll_nodup v es (dir ++ [n]) ps h (ht n es rfl)
  | .other n, dir, ps, h, _ => by
    simp only [visit, Option.some.injEq] at h
    subst h
    exact List.nodup_nil
  | .unreadable n, dir, ps, h, _ => by
    rw [visit] at h
    split at h
    · cases h; exact List.nodup_nil
    · cases h

theorem visitAll_nodup (v : Path → Bool → Verdict) : ∀ (es : List Entry) (dir : Path) (ps : List Path), visitAll v dir es = some ps →
    Tree es → ps.Nodup
  | [], dir, ps, h, _ => by
    rw [visitAll] at h
    cases h
    exact List.nodup_nil
  | e :: es, dir, ps, h, ht => by
    rw [visitAll] at h
    split at h
    · cases h
    · rename_i qs hq
      rw [Option.map_eq_some_iff] at h
      obtain ⟨rs, hr, rfl⟩ := h
      obtain ⟨h1, h2, h3, h4⟩ := tree_cons ht
      rw [List.nodup_append]
      refine ⟨visit_nodup v e dir qs hq h4, visitAll_nodup v es dir rs hr h1, ?_⟩
      rintro x hx y hy rfl
      obtain ⟨p, hp, rfl, _⟩ := (visit_finds v e dir qs hq x).mp hx
      obtain ⟨q, hq', e', _⟩ := (visitAll_finds v es dir rs hr _).mp hy
      have e' := List.append_cancel_left e'
      subst e'
      obtain ⟨a, ha, r, rfl⟩ := fileAt_head hp
      obtain ⟨b, hb, r', e''⟩ := fileAt_head hq'
      simp at ha
      subst ha
      simp at e''
      exact h3 (List.mem_map.mpr ⟨b, hb, e''.1.symm⟩)

end

theorem joinWith_append {c : Char} : ∀ {a b : List (List Char)}, a ≠ [] → b ≠ [] →
    joinWith [c] (a ++ b) = joinWith [c] a ++ c :: joinWith [c] b
  | [], _, h, _ => absurd rfl h
  | [x], y :: b, _, _ => by simp [joinWith]
  | x :: x' :: a, b, _, hb => by
    have := joinWith_append (c := c) (a := x' :: a) (b := b) (by simp) hb
    simp only [List.cons_append] at this ⊢
    simp [joinWith, this]

theorem name_inj {base p q : Path} (hp : p ≠ []) (hq : q ≠ []) (sp : ∀ n ∈ p, '/' ∉ n) (sq : ∀ n ∈ q, '/' ∉ n)
    (h : joinWith ['/'] (base ++ p) = joinWith ['/'] (base ++ q)) : p = q := by
  have h : joinWith ['/'] p = joinWith ['/'] q := by
    by_cases hb : base = []
    · subst hb; exact h
    · rw [joinWith_append hb hp, joinWith_append hb hq] at h
      simpa using h
  have := congrArg (splitOn '/') h
  rwa [splitOn_join hp sp, splitOn_join hq sq] at this

theorem nodup_map_mem {α β : Type} {f : α → β} : ∀ {l : List α}, (∀ x ∈ l, ∀ y ∈ l, f x = f y → x = y) → l.Nodup → (l.map f).Nodup
  | [], _, _ => List.nodup_nil
  | a :: l, h, hn => by
    rw [List.nodup_cons] at hn
    rw [List.map_cons, List.nodup_cons]
    refine ⟨fun hm => ?_, nodup_map_mem (fun x hx y hy => h x (by simp [hx]) y (by simp [hy])) hn.2⟩
    obtain ⟨y, hy, e⟩ := List.mem_map.mp hm
    exact hn.1 ((h a (by simp) y (by simp [hy]) e.symm) ▸ hy)

end Hongdown.Model
