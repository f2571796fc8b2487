import Verif.Spec.Formatter

/-!
# Invariants of the two processes
-/

set_option linter.unusedSimpArgs false

namespace Hongdown.Lemmas

open Hongdown.Model Hongdown.Spec

variable {sys : System} {secs : Nat} {status : Status}

theorem run_append (s : Duo) (a b : List Turn) :
    s.run sys secs status (a ++ b) = (s.run sys secs status a).run sys secs status b := by
  simp [Duo.run, List.foldl_append]

theorem run_cons (s : Duo) (t : Turn) (ts : List Turn) :
    s.run sys secs status (t :: ts) = (s.step sys secs status t).run sys secs status ts := rfl

theorem run_induct {P : Duo → Prop} (h : ∀ s t, P s → P (s.step sys secs status t)) :
    ∀ (ts : List Turn) (s : Duo), P s → P (s.run sys secs status ts) := by
  intro ts
  induction ts with
  | nil => intro s hs; exact hs
  | cons t ts ih => intro s hs; exact ih _ (h _ _ hs)

theorem childStep_runner (s : Duo) : (childStep sys status s).runner = s.runner := by
  unfold childStep
  repeat' split
  all_goals rfl

theorem childStep_clock (s : Duo) : (childStep sys status s).clock = s.clock := by
  unfold childStep
  repeat' split
  all_goals rfl

theorem tick_runner (s : Duo) : (tick s).runner = s.runner := rfl

theorem runnerStep_clock (s : Duo) : (runnerStep sys secs s).clock = s.clock := by
  unfold runnerStep
  repeat' split
  all_goals rfl

theorem step_clock (s : Duo) (t : Turn) :
    (s.step sys secs status t).clock = s.clock + if t = .time then 1 else 0 := by
  cases t
  · simp [Duo.step, runnerStep_clock]
  · simp [Duo.step, childStep_clock]
  · simp [Duo.step, tick]

theorem run_clock : ∀ (ts : List Turn) (s : Duo),
    (s.run sys secs status ts).clock = s.clock + ts.count .time := by
  intro ts
  induction ts with
  | nil => intro s; rfl
  | cons t ts ih =>
    intro s
    rw [run_cons, ih, step_clock, List.count_cons]
    cases t <;> simp <;> omega

/-- What has come back stays. -/
theorem step_finished {s : Duo} {n : Nat} {r : Formatted} (h : s.runner = .finished n r) (t : Turn) :
    (s.step sys secs status t).runner = .finished n r := by
  cases t
  · simp only [Duo.step, runnerStep, h]
  · simp only [Duo.step, childStep_runner, h]
  · exact h

theorem run_finished {s : Duo} {n : Nat} {r : Formatted} (h : s.runner = .finished n r) (ts : List Turn) :
    (s.run sys secs status ts).runner = .finished n r :=
  run_induct (P := fun s => s.runner = .finished n r) (fun _ t hs => step_finished hs t) ts s h

/-- What a result says about the child. -/
def Right (sys : System) (status : Status) (child : List Act) (code : List Byte) (exited : Option Status) :
    Formatted → Prop
  | .ok out => out = allOut child ∧ status = some 0 ∧ sys.isUtf8 out = true
  | .error (.nonZeroExit c err) => c = status ∧ status ≠ some 0 ∧ err = allErr child
  | .error .invalidUtf8 => status = some 0 ∧ sys.isUtf8 (allOut child) = false
  | .error .emptyCommand => False
  | .error .spawn => ∃ t, sys.waitFails t = true
  | .error .stdin => exited = some status ∧ code ≠ []
  | .error .timeout => exited = some none

/-- The times of the polls. -/
def Polls (secs : Nat) (clock : Nat) : Runner → Prop
  | .writing _ => True
  | .waiting start wake n =>
    start + 50 * n ≤ wake ∧ (0 < n → wake < start + secs * 1000 + 50) ∧ wake ≤ clock + 50 ∧ start ≤ clock
  | .finished n _ => n ≤ 20 * secs + 1

/-- The invariant. -/
structure FInv (sys : System) (secs : Nat) (status : Status) (child : List Act) (code : List Byte) (s : Duo) :
    Prop where
  out : s.exited = none ∨ s.exited = some status ∧ s.child = [] ∨ s.result = some (.error .timeout)
  outs : s.pipeOut ++ allOut s.child = allOut child
  errs : s.pipeErr ++ allErr s.child = allErr child
  cap : s.pipeOut.length ≤ sys.cap
  rest : ∀ bs, s.runner = .writing bs → bs ≠ [] → code ≠ []
  right : ∀ r, s.result = some r → Right sys status child code s.exited r
  polls : Polls secs s.clock s.runner

theorem FInv.init (child : List Act) (code : List Byte) :
    FInv sys secs status child code { runner := .writing code, child := child } where
  out := .inl rfl
  outs := by simp
  errs := by simp
  cap := Nat.zero_le _
  rest := by intro bs h h2; cases h; exact h2
  right := by intro r h; cases h
  polls := trivial

theorem FInv.runnerStep {child : List Act} {code : List Byte} {s : Duo} (h : FInv sys secs status child code s) :
    FInv sys secs status child code (runnerStep sys secs s) := by
  obtain ⟨runner, acts, exited, pin, pout, perr, clock⟩ := s
  obtain ⟨h1, h2, h3, h4, h5, h6, h7⟩ := h
  simp only [] at h1 h2 h3 h4 h5 h6 h7
  cases runner with
  | finished n r => exact ⟨h1, h2, h3, h4, h5, h6, h7⟩
  | writing bs =>
    have hx : exited = none ∨ exited = some status ∧ acts = [] := by
      rcases h1 with h | h | h
      · exact .inl h
      · exact .inr h
      · cases h
    cases bs with
    | nil =>
      refine ⟨?_, h2, h3, h4, ?_, ?_, ?_⟩
      · rcases hx with h | h
        · exact .inl h
        · exact .inr (.inl h)
      · intro bs h; cases h
      · intro r h; cases h
      · exact ⟨by simp, by simp, by simp [runnerStep_clock], by simp [runnerStep_clock]⟩
    | cons b bs =>
      have hc := h5 _ rfl (by simp)
      simp only [Model.runnerStep]
      by_cases he : exited.isSome = true
      · rw [if_pos he]
        have he' : exited = some status ∧ acts = [] := by
          rcases hx with h | h
          · rw [h] at he; cases he
          · exact h
        refine ⟨.inr (.inl he'), h2, h3, h4, ?_, ?_, ?_⟩
        · intro bs h; cases h
        · intro r h; cases h; exact ⟨he'.1, hc⟩
        · exact Nat.zero_le _
      · rw [if_neg he]
        by_cases hl : pin.length < sys.cap
        · rw [if_pos hl]
          refine ⟨?_, h2, h3, h4, ?_, ?_, trivial⟩
          · rcases hx with h | h
            · exact .inl h
            · exact .inr (.inl h)
          · intro _ _ _; exact hc
          · intro r h; cases h
        · rw [if_neg hl]
          exact ⟨h1, h2, h3, h4, h5, h6, h7⟩
  | waiting start wake n =>
    have hx : exited = none ∨ exited = some status ∧ acts = [] := by
      rcases h1 with h | h | h
      · exact .inl h
      · exact .inr h
      · cases h
    obtain ⟨p1, p2, p3, p4⟩ := h7
    simp only [Model.runnerStep]
    by_cases hw : clock < wake
    · rw [if_pos hw]
      exact ⟨h1, h2, h3, h4, h5, h6, ⟨p1, p2, p3, p4⟩⟩
    · rw [if_neg hw]
      have hn : n ≤ 20 * secs := by
        by_cases h0 : 0 < n
        · have := p2 h0; omega
        · omega
      by_cases hf : sys.waitFails clock = true
      · rw [if_pos hf]
        refine ⟨?_, h2, h3, h4, ?_, ?_, ?_⟩
        · rcases hx with h | h
          · exact .inl h
          · exact .inr (.inl h)
        · intro bs h; cases h
        · intro r h; cases h; exact ⟨_, hf⟩
        · exact Nat.succ_le_succ hn
      · rw [if_neg hf]
        cases exited with
        | some st =>
          have he' : st = status ∧ acts = [] := by
            rcases hx with h | h
            · cases h
            · exact ⟨by have := h.1; injection this, h.2⟩
          obtain ⟨rfl, rfl⟩ := he'
          have ho : pout = allOut child := by simpa [allOut] using h2
          have hr : perr = allErr child := by simpa [allErr] using h3
          simp only []
          by_cases hs : Status.success st = true
          · rw [if_pos hs]
            have hs' : st = some 0 := by simpa [Status.success] using hs
            refine ⟨.inr (.inl ⟨rfl, rfl⟩), h2, h3, h4, ?_, ?_, ?_⟩
            · intro bs h; cases h
            · intro r h
              simp only [Duo.result, Option.some.injEq] at h
              subst h
              by_cases hu : sys.isUtf8 pout = true
              · rw [if_pos hu]; exact ⟨ho, hs', hu⟩
              · rw [if_neg hu]
                exact ⟨hs', by rw [← ho]; exact Bool.eq_false_iff.mpr hu⟩
            · exact Nat.succ_le_succ hn
          · rw [if_neg hs]
            refine ⟨.inr (.inl ⟨rfl, rfl⟩), h2, h3, h4, ?_, ?_, ?_⟩
            · intro bs h; cases h
            · intro r h
              cases h
              exact ⟨rfl, fun hh => hs (by simp [Status.success, hh]), hr⟩
            · exact Nat.succ_le_succ hn
        | none =>
          simp only []
          by_cases ht : secs * 1000 ≤ clock - start
          · rw [if_pos ht]
            refine ⟨.inr (.inr rfl), h2, h3, h4, ?_, ?_, ?_⟩
            · intro bs h; cases h
            · intro r h; cases h; rfl
            · exact Nat.succ_le_succ hn
          · rw [if_neg ht]
            refine ⟨.inl rfl, h2, h3, h4, ?_, ?_, ?_⟩
            · intro bs h; cases h
            · intro r h; cases h
            · simp only [Polls]
              refine ⟨by omega, by intro _; omega, by omega, by omega⟩

theorem childStep_exited {s : Duo} (h : s.exited.isSome = true) : childStep sys status s = s := by
  unfold childStep
  rw [if_pos h]

theorem FInv.childStep {child : List Act} {code : List Byte} {s : Duo} (h : FInv sys secs status child code s) :
    FInv sys secs status child code (childStep sys status s) := by
  by_cases he : s.exited.isSome = true
  · rw [childStep_exited he]; exact h
  · have hn : s.exited = none := by simpa using he
    obtain ⟨h1, h2, h3, h4, h5, h6, h7⟩ := h
    have hr : ∀ (s' : Duo), s'.runner = s.runner → s'.clock = s.clock →
        (s'.exited = none ∨ s'.exited = some status ∧ s'.child = []) →
        s'.pipeOut ++ allOut s'.child = allOut child → s'.pipeErr ++ allErr s'.child = allErr child →
        s'.pipeOut.length ≤ sys.cap → FInv sys secs status child code s' := by
      intro s' q1 q2 q3 q4 q5 q6
      refine ⟨?_, q4, q5, q6, ?_, ?_, ?_⟩
      · rcases q3 with h | h
        · exact .inl h
        · exact .inr (.inl h)
      · intro bs hb; rw [q1] at hb; exact h5 bs hb
      · intro r hr'
        have hr2 : s.result = some r := by rw [← hr']; simp only [Duo.result, q1]
        have := h6 r hr2
        rw [hn] at this
        cases r with
        | ok out => exact this
        | error e =>
          cases e with
          | stdin => cases this.1
          | timeout => cases this
          | _ => exact this
      · rw [q1, q2]; exact h7
    apply hr _ (childStep_runner s) (childStep_clock s)
    · unfold Model.childStep
      rw [if_neg he]
      split
      case h_1 hc => exact .inr ⟨rfl, hc⟩
      all_goals (repeat' split)
      all_goals exact .inl hn
    · unfold Model.childStep
      rw [if_neg he]
      split
      all_goals rename_i hc
      all_goals (repeat' split)
      all_goals first | exact h2 | (rw [← h2]; simp [hc, allOut])
    · unfold Model.childStep
      rw [if_neg he]
      split
      all_goals rename_i hc
      all_goals (repeat' split)
      all_goals first | exact h3 | (rw [← h3]; simp [hc, allErr])
    · unfold Model.childStep
      rw [if_neg he]
      repeat' split
      all_goals first | exact h4 | (simp only [List.length_append, List.length_singleton]; omega)

theorem FInv.tick {child : List Act} {code : List Byte} {s : Duo} (h : FInv sys secs status child code s) :
    FInv sys secs status child code (tick s) := by
  obtain ⟨h1, h2, h3, h4, h5, h6, h7⟩ := h
  have ho : allOut (Model.tick s).child = allOut s.child := by
    simp only [Model.tick]
    split
    · next hc => rw [hc]; rfl
    · rfl
  have he : allErr (Model.tick s).child = allErr s.child := by
    simp only [Model.tick]
    split
    · next hc => rw [hc]; rfl
    · rfl
  refine ⟨?_, ?_, ?_, h4, h5, h6, ?_⟩
  · rcases h1 with h | ⟨h, h'⟩ | h
    · exact .inl h
    · refine .inr (.inl ⟨h, ?_⟩)
      simp only [Model.tick, h']
    · exact .inr (.inr h)
  · rw [ho]; exact h2
  · rw [he]; exact h3
  · have hk : (Model.tick s).runner = s.runner := rfl
    have hc : (Model.tick s).clock = s.clock + 1 := rfl
    rw [hk, hc]
    cases hr : s.runner with
    | writing _ => trivial
    | finished n r => rw [hr] at h7; exact h7
    | waiting a b n =>
      rw [hr] at h7
      obtain ⟨p1, p2, p3, p4⟩ := h7
      exact ⟨p1, p2, by omega, by omega⟩

theorem FInv.run {child : List Act} {code : List Byte} {s : Duo} (h : FInv sys secs status child code s)
    (ts : List Turn) : FInv sys secs status child code (s.run sys secs status ts) :=
  run_induct (P := FInv sys secs status child code) (fun s t hs => by
    cases t
    · exact hs.runnerStep
    · exact hs.childStep
    · exact hs.tick) ts s h

/-! ### Progress -/

theorem step_waiting {s : Duo} {a w n : Nat} (h : s.runner = .waiting a w n) (t : Turn) :
    (∃ m r, (s.step sys secs status t).runner = .finished m r) ∨
      ∃ w' n', (s.step sys secs status t).runner = .waiting a w' n' ∧ (n' = n ∧ w' = w ∨ n + 1 ≤ n') := by
  cases t
  · simp only [Duo.step, runnerStep, h]
    repeat' split
    all_goals first
      | exact .inl ⟨_, _, rfl⟩
      | exact .inr ⟨_, _, h, .inl ⟨rfl, rfl⟩⟩
      | exact .inr ⟨_, _, rfl, .inr (Nat.le_refl _)⟩
  · exact .inr ⟨w, n, by simp only [Duo.step, childStep_runner, h], .inl ⟨rfl, rfl⟩⟩
  · exact .inr ⟨w, n, h, .inl ⟨rfl, rfl⟩⟩

theorem run_waiting : ∀ (ts : List Turn) {s : Duo} {a w n : Nat}, s.runner = .waiting a w n →
    (∃ m r, (s.run sys secs status ts).runner = .finished m r) ∨
      ∃ w' n', (s.run sys secs status ts).runner = .waiting a w' n' ∧ (n' = n ∧ w' = w ∨ n + 1 ≤ n') := by
  intro ts
  induction ts with
  | nil => intro s a w n h; exact .inr ⟨w, n, h, .inl ⟨rfl, rfl⟩⟩
  | cons t ts ih =>
    intro s a w n h
    rw [run_cons]
    rcases step_waiting h t with ⟨m, r, hf⟩ | ⟨w', n', hw, hc⟩
    · exact .inl ⟨m, r, run_finished hf ts⟩
    · rcases ih hw with hf | ⟨w2, n2, hw2, hc2⟩
      · exact .inl hf
      · refine .inr ⟨w2, n2, hw2, ?_⟩
        rcases hc with ⟨rfl, rfl⟩ | hc
        · exact hc2
        · rcases hc2 with ⟨rfl, rfl⟩ | hc2
          · exact .inr hc
          · exact .inr (by omega)

theorem round_waiting {child : List Act} {code : List Byte} {s : Duo} (hi : FInv sys secs status child code s)
    {a w n : Nat} (h : s.runner = .waiting a w n) {ts : List Turn} (hr : IsRound ts) :
    (∃ m r, (s.run sys secs status ts).runner = .finished m r) ∨
      ∃ w' n', (s.run sys secs status ts).runner = .waiting a w' n' ∧ n + 1 ≤ n' := by
  obtain ⟨x, y, rfl, hx⟩ := hr
  rw [run_append]
  rcases run_waiting (x ++ .child :: y) h (sys := sys) (secs := secs) (status := status) with
    ⟨m, r, hf⟩ | ⟨w', n', hw, hc⟩
  · exact .inl ⟨m, r, run_finished hf _⟩
  · rcases hc with ⟨rfl, rfl⟩ | hc
    · have hclock := run_clock (sys := sys) (secs := secs) (status := status) (x ++ .child :: y) s
      have h7 := hi.polls
      rw [h] at h7
      obtain ⟨_, _, p3, _⟩ := h7
      rw [List.count_append] at hclock
      generalize s.run sys secs status (x ++ .child :: y) = s' at hw hclock
      have hlt : ¬ s'.clock < w' := by omega
      show (∃ m r, (runnerStep sys secs s').runner = _) ∨ ∃ w' n', (runnerStep sys secs s').runner = _ ∧ _
      simp only [runnerStep, hw]
      rw [if_neg hlt]
      repeat' split
      all_goals first
        | exact .inl ⟨_, _, rfl⟩
        | exact .inr ⟨_, _, rfl, Nat.le_refl _⟩
    · rcases run_waiting [.runner] hw (sys := sys) (secs := secs) (status := status) with hf | ⟨w2, n2, hw2, hc2⟩
      · exact .inl hf
      · refine .inr ⟨w2, n2, hw2, ?_⟩
        rcases hc2 with ⟨rfl, rfl⟩ | hc2 <;> omega

/-- Nothing keeps the program from writing: the pipe is large enough for all, or the child
reads. -/
def Flows (sys : System) (s : Duo) (rest : List Byte) : Prop :=
  s.pipeIn.length + rest.length ≤ sys.cap ∨
    s.exited = none ∧ s.pipeIn.length ≤ sys.cap ∧ 0 < sys.cap ∧ ∃ acts, s.child = .readAll :: acts

/-- The runner is past writing. -/
def Past (s : Duo) : Prop := ∀ bs, s.runner ≠ .writing bs

theorem Past.step {s : Duo} (h : Past s) (t : Turn) : Past (s.step sys secs status t) := by
  intro bs hb
  cases hr : s.runner with
  | writing b => exact h b hr
  | waiting a w n =>
    rcases step_waiting hr t (sys := sys) (secs := secs) (status := status) with ⟨m, r, hf⟩ | ⟨w', n', hw, _⟩
    · rw [hf] at hb; cases hb
    · rw [hw] at hb; cases hb
  | finished m r =>
    rw [step_finished hr t] at hb; cases hb

theorem Past.run {s : Duo} (h : Past s) (ts : List Turn) : Past (s.run sys secs status ts) :=
  run_induct (P := Past) (fun _ t hs => hs.step t) ts s h

theorem childStep_flows {s : Duo} {rest : List Byte} (h : s.runner = .writing rest) (hf : Flows sys s rest) :
    Flows sys (childStep sys status s) rest ∧ (childStep sys status s).pipeIn.length ≤ s.pipeIn.length ∧
      ((∃ acts, s.child = .readAll :: acts) → s.exited = none → s.pipeIn.length ≤ sys.cap → 0 < sys.cap →
        (childStep sys status s).pipeIn.length < sys.cap) := by
  have hle : (childStep sys status s).pipeIn.length ≤ s.pipeIn.length := by
    unfold childStep
    repeat' split
    all_goals first
      | exact Nat.le_refl _
      | (rename_i hp; rw [hp]; simp)
  have ho : s.stdinOpen = true := by simp [Duo.stdinOpen, h]
  refine ⟨?_, hle, ?_⟩
  · rcases hf with hf | ⟨h1, h2, h3, acts, h4⟩
    · exact .inl (by omega)
    · refine .inr ?_
      simp only [childStep, h1, h4, ho]
      cases hp : s.pipeIn with
      | nil => simp [h1, hp, h3, h4]
      | cons b bs => simp [h1]; rw [hp] at h2; simp at h2; exact ⟨by omega, h3⟩
  · rintro ⟨acts, h4⟩ h1 h2 h3
    simp only [childStep, h1, h4, ho]
    cases hp : s.pipeIn with
    | nil => simp [hp, h3]
    | cons b bs => rw [hp] at h2; simp at h2 ⊢; omega

/-- After some turns the program has written, or could. -/
theorem run_flows : ∀ (ts : List Turn) {s : Duo} {rest : List Byte}, s.runner = .writing rest → Flows sys s rest →
    Past (s.run sys secs status ts) ∨ ∃ rest', (s.run sys secs status ts).runner = .writing rest' ∧
      Flows sys (s.run sys secs status ts) rest' ∧ rest'.length ≤ rest.length ∧
      (s.pipeIn.length < sys.cap → rest'.length = rest.length →
        (s.run sys secs status ts).pipeIn.length < sys.cap) := by
  intro ts
  induction ts with
  | nil => intro s rest h hf; exact .inr ⟨rest, h, hf, Nat.le_refl _, fun h _ => h⟩
  | cons t ts ih =>
    intro s rest h hf
    rw [run_cons]
    have key : Past (s.step sys secs status t) ∨ ∃ rest', (s.step sys secs status t).runner = .writing rest' ∧
      Flows sys (s.step sys secs status t) rest' ∧ rest'.length ≤ rest.length ∧
      (s.pipeIn.length < sys.cap → rest'.length = rest.length →
        (s.step sys secs status t).pipeIn.length < sys.cap) := by
      cases t
      · cases rest with
        | nil =>
          left
          intro bs hb
          simp only [Duo.step, runnerStep, h] at hb
          cases hb
        | cons b bs =>
          simp only [Duo.step, runnerStep, h]
          by_cases he : s.exited.isSome = true
          · rw [if_pos he]; left; intro bs hb; cases hb
          · rw [if_neg he]
            right
            by_cases hl : s.pipeIn.length < sys.cap
            · rw [if_pos hl]
              refine ⟨bs, rfl, ?_, by simp, ?_⟩
              · rcases hf with hf | ⟨h1, h2, h3, acts, h4⟩
                · left; simp at hf ⊢; omega
                · right; exact ⟨h1, by simp; omega, h3, acts, h4⟩
              · intro _ hh; simp at hh
            · rw [if_neg hl]
              exact ⟨b :: bs, h, hf, Nat.le_refl _, fun hh => absurd hh hl⟩
      · right
        have := childStep_flows (status := status) h hf
        exact ⟨rest, by simp only [Duo.step, childStep_runner, h], this.1, Nat.le_refl _, fun hh _ =>
          Nat.lt_of_le_of_lt this.2.1 hh⟩
      · right
        refine ⟨rest, h, ?_, Nat.le_refl _, fun hh _ => hh⟩
        rcases hf with hf | ⟨h1, h2, h3, acts, h4⟩
        · exact .inl hf
        · exact .inr ⟨h1, h2, h3, acts, by simp only [Duo.step, tick, h4]⟩
    rcases key with hp | ⟨r1, k1, k2, k3, k4⟩
    · exact .inl (hp.run ts)
    · rcases ih k1 k2 with hp | ⟨r2, m1, m2, m3, m4⟩
      · exact .inl hp
      · refine .inr ⟨r2, m1, m2, by omega, fun hl hh => ?_⟩
        exact m4 (k4 hl (by omega)) (by omega)

theorem round_writing {s : Duo} {rest : List Byte} (h : s.runner = .writing rest) (hf : Flows sys s rest)
    {ts : List Turn} (hr : IsRound ts) :
    Past (s.run sys secs status ts) ∨ ∃ rest', (s.run sys secs status ts).runner = .writing rest' ∧
      Flows sys (s.run sys secs status ts) rest' ∧ rest'.length < rest.length := by
  obtain ⟨x, y, rfl, _⟩ := hr
  have e : x ++ .child :: y ++ [.runner] = x ++ ([.child] ++ (y ++ [.runner])) := by simp
  rw [e, run_append, run_append, run_append]
  rcases run_flows x h hf (secs := secs) (status := status) with hp | ⟨r1, k1, k2, k3, _⟩
  · exact .inl (((hp.run _).run _).run _)
  generalize s.run sys secs status x = s1 at k1 k2
  have kc := childStep_flows (status := status) k1 k2
  have k5 : (s1.run sys secs status [.child]).runner = .writing r1 := by
    show (childStep sys status s1).runner = _
    rw [childStep_runner, k1]
  have k6 : Flows sys (s1.run sys secs status [.child]) r1 := kc.1
  have k7 : r1 = [] ∨ (s1.run sys secs status [.child]).pipeIn.length < sys.cap := by
    by_cases h0 : r1 = []
    · exact .inl h0
    · right
      rcases k2 with k2 | ⟨h1, h2, h3, h4⟩
      · have := kc.2.1
        have : 0 < r1.length := List.length_pos_iff.mpr h0
        show (childStep sys status s1).pipeIn.length < _
        omega
      · exact kc.2.2 h4 h1 h2 h3
  generalize s1.run sys secs status [.child] = s2 at k5 k6 k7
  rcases run_flows y k5 k6 (secs := secs) (status := status) with hp | ⟨r2, m1, m2, m3, m4⟩
  · exact .inl (hp.run _)
  generalize s2.run sys secs status y = s3 at m1 m2 m4
  show Past (runnerStep sys secs s3) ∨ ∃ rest', (runnerStep sys secs s3).runner = .writing rest' ∧
      Flows sys (runnerStep sys secs s3) rest' ∧ rest'.length < rest.length
  cases r2 with
  | nil =>
    left
    intro bs hb
    simp only [runnerStep, m1] at hb
    cases hb
  | cons b bs =>
    simp only [runnerStep, m1]
    by_cases he : s3.exited.isSome = true
    · rw [if_pos he]; left; intro bs hb; cases hb
    · rw [if_neg he]
      right
      by_cases hl : s3.pipeIn.length < sys.cap
      · rw [if_pos hl]
        refine ⟨bs, rfl, ?_, by simp at m3; omega⟩
        rcases m2 with hf | ⟨h1, h2, h3, acts, h4⟩
        · left; simp at hf ⊢; omega
        · right; exact ⟨h1, by simp; omega, h3, acts, h4⟩
      · rw [if_neg hl]
        refine ⟨b :: bs, m1, m2, ?_⟩
        rcases k7 with k7 | k7
        · rw [k7] at m3; simp at m3
        · by_cases heq : (b :: bs).length = r1.length
          · exact absurd (m4 k7 heq) hl
          · omega

/-- The number of rounds that are left at most. -/
def roundsLeft (secs : Nat) : Runner → Nat
  | .writing bs => bs.length + 20 * secs + 2
  | .waiting _ _ n => 20 * secs + 1 - n
  | .finished _ _ => 0

theorem rounds_finish {child : List Act} {code : List Byte} : ∀ (rounds : List (List Turn)),
    (∀ ts ∈ rounds, IsRound ts) → ∀ (s : Duo), FInv sys secs status child code s →
    (∀ bs, s.runner = .writing bs → Flows sys s bs) → roundsLeft secs s.runner ≤ rounds.length →
    ∃ n r, (s.run sys secs status rounds.flatten).runner = .finished n r := by
  intro rounds
  induction rounds with
  | nil =>
    intro _ s hi _ hl
    cases hr : s.runner with
    | writing bs => rw [hr] at hl; simp [roundsLeft] at hl
    | waiting a w n =>
      rw [hr] at hl
      have := hi.polls
      rw [hr] at this
      obtain ⟨p1, p2, p3, p4⟩ := this
      simp only [roundsLeft, List.length_nil] at hl
      have := p2 (by omega)
      omega
    | finished n r => exact ⟨n, r, run_finished hr _⟩
  | cons ts rounds ih =>
    intro hall s hi hw hl
    rw [List.flatten_cons, run_append]
    have hr := hall ts (by simp)
    have ih' := ih (fun x hx => hall x (by simp [hx])) (s.run sys secs status ts) (hi.run ts)
    cases hs : s.runner with
    | finished n r =>
      exact ⟨n, r, run_finished (run_finished hs _) _⟩
    | waiting a w n =>
      rw [hs] at hl
      simp only [roundsLeft, List.length_cons] at hl
      rcases round_waiting hi hs hr with ⟨m, r, hf⟩ | ⟨w', n', hw', hn⟩
      · exact ⟨m, r, run_finished hf _⟩
      · apply ih'
        · intro bs hb; rw [hw'] at hb; cases hb
        · rw [hw']; simp only [roundsLeft]; omega
    | writing bs =>
      rw [hs] at hl
      simp only [roundsLeft, List.length_cons] at hl
      rcases round_writing hs (hw bs hs) hr (secs := secs) (status := status) with hp | ⟨r1, k1, k2, k3⟩
      · apply ih'
        · intro bs hb; exact absurd hb (hp bs)
        · cases hx : (s.run sys secs status ts).runner with
          | writing b => exact absurd hx (hp b)
          | waiting a w n => simp only [roundsLeft]; omega
          | finished n r => simp [roundsLeft]
      · apply ih'
        · intro b hb; rw [k1] at hb; cases hb; exact k2
        · rw [k1]; simp only [roundsLeft]; omega

end Hongdown.Lemmas
