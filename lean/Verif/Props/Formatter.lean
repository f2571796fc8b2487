import Verif.Lemmas.Formatter

/-!
# C50, C69: running external formatters
-/

namespace Hongdown.Props

open Hongdown.Model Hongdown.Spec Hongdown.Lemmas

/-- A system with pipes of `cap` bytes. -/
def exSystem (cap : Nat) : System := ⟨cap, true, fun _ => true, fun _ => false⟩

theorem start_cases (sys : System) (command : List (List Char)) (code : List Byte) (child : List Act) :
    startFormatter sys command code child = { runner := .writing code, child := child } ∨
    ∃ e, startFormatter sys command code child = { runner := .finished 0 (.error e), child := [], exited := some none } ∧
      (e = .emptyCommand ∧ command = [] ∨ e = .spawn ∧ sys.canSpawn = false) := by
  unfold startFormatter
  by_cases h1 : command = []
  · rw [if_pos h1]; exact .inr ⟨_, rfl, .inl ⟨rfl, h1⟩⟩
  · rw [if_neg h1]
    by_cases h2 : sys.canSpawn = true
    · rw [if_pos h2]; exact .inl rfl
    · rw [if_neg h2]; exact .inr ⟨_, rfl, .inr ⟨rfl, Bool.eq_false_iff.mpr h2⟩⟩

/-! ### C50 -/

/-- **C50.** An output comes from a child that has run to its end with success, and is all it
has written; a failure carries the status and the messages of the child. -/
theorem c50_result (sys : System) (secs : Nat) (command : List (List Char)) (code : List Byte)
    (child : List Act) (status : Status) (turns : List Turn) (s : Duo)
    (hs : s = (startFormatter sys command code child).run sys secs status turns) :
    (∀ out, s.result = some (.ok out) → out = allOut child ∧ status = some 0 ∧ sys.isUtf8 out = true) ∧
    (∀ c err, s.result = some (.error (.nonZeroExit c err)) → c = status ∧ status ≠ some 0 ∧ err = allErr child) ∧
    (s.result = some (.error .invalidUtf8) → status = some 0 ∧ sys.isUtf8 (allOut child) = false) ∧
    (s.result = some (.error .emptyCommand) → command = []) ∧
    (s.result = some (.error .spawn) → sys.canSpawn = false ∨ ∃ t, sys.waitFails t = true) ∧
    (s.result = some (.error .stdin) → s.exited = some status ∧ code ≠ []) := by
  rcases start_cases sys command code child with h | ⟨e, h, he⟩
  · have hi : FInv sys secs status child code s := by rw [hs, h]; exact (FInv.init child code).run turns
    refine ⟨fun o hr => hi.right _ hr, fun c err hr => hi.right _ hr, fun hr => hi.right _ hr,
      fun hr => (hi.right _ hr).elim, fun hr => .inr (hi.right _ hr), fun hr => hi.right _ hr⟩
  · have hf : s.result = some (.error e) := by
      rw [hs, h]
      simp only [Duo.result, run_finished (s := { runner := .finished 0 (.error e), child := [], exited := some none }) rfl]
    rw [hf]
    rcases he with ⟨rfl, hc⟩ | ⟨rfl, hc⟩
    · refine ⟨?_, ?_, ?_, ?_, ?_, ?_⟩ <;> intros <;> simp_all
    · refine ⟨?_, ?_, ?_, ?_, ?_, ?_⟩ <;> intros <;> simp_all

theorem tick_work (s : Duo) : allWork s.child ≤ allWork (tick s).child + 1 ∧
    (.forever ∈ s.child → .forever ∈ (tick s).child) ∧ (s.child = [] → (tick s).child = []) := by
  unfold tick
  split
  · rename_i n acts he
    rw [he]
    simp only [allWork, List.map_cons, List.sum_cons, List.mem_cons]
    refine ⟨by omega, fun h => ?_, fun h => by cases h⟩
    rcases h with h | h
    · cases h
    · exact .inr h
  · exact ⟨Nat.le_succ _, id, id⟩

theorem childStep_work (sys : System) (status : Status) (s : Duo) : allWork s.child = allWork (childStep sys status s).child ∧
    (.forever ∈ s.child → .forever ∈ (childStep sys status s).child) := by
  unfold childStep
  repeat' split
  all_goals first
    | exact ⟨rfl, id⟩
    | simp [*, allWork]

/-- **C50.** An output is given only after all the time which the child computes, and never if it goes on for ever. -/
theorem c50_time (sys : System) (secs : Nat) (command : List (List Char)) (code : List Byte)
    (child : List Act) (status : Status) (turns : List Turn) (out : List Byte)
    (h : ((startFormatter sys command code child).run sys secs status turns).result = some (.ok out)) :
    allWork child ≤ turns.count .time ∧ .forever ∉ child := by
  rcases start_cases sys command code child with h1 | ⟨e, h1, _⟩
  · rw [h1] at h
    have key := run_induct (sys := sys) (secs := secs) (status := status)
      (P := fun s => FInv sys secs status child code s ∧ allWork child ≤ allWork s.child + s.clock ∧
        (.forever ∈ child → .forever ∈ s.child) ∧ ∀ o, s.result = some (.ok o) → s.child = []) (fun s t hs => by
      obtain ⟨p1, p2, p3, p4⟩ := hs
      refine ⟨p1.run [t], ?_⟩
      cases t
      · have hc : (runnerStep sys secs s).child = s.child := by
          unfold runnerStep
          repeat' split
          all_goals rfl
        simp only [Duo.step]
        rw [hc, runnerStep_clock]
        refine ⟨p2, p3, fun o ho => ?_⟩
        cases hq : s.runner with
        | finished n r =>
          rw [runnerStep, hq] at ho
          exact p4 o ho
        | writing bs =>
          cases bs with
          | nil => simp [runnerStep, hq, Duo.result] at ho
          | cons b bs =>
            rw [runnerStep, hq] at ho
            by_cases c1 : s.exited.isSome = true
            · simp [c1, Duo.result] at ho
            · by_cases c2 : s.pipeIn.length < sys.cap
              · simp [c1, c2, Duo.result] at ho
              · simp [c1, c2, Duo.result, hq] at ho
        | waiting a w n =>
          rcases p1.out with hx | hx | hx
          · rw [runnerStep, hq] at ho
            simp only [hx] at ho
            by_cases c1 : s.clock < w
            · simp [c1, Duo.result, hq] at ho
            · by_cases c2 : sys.waitFails s.clock = true
              · simp [c1, c2, Duo.result] at ho
              · by_cases c3 : secs * 1000 ≤ s.clock - a
                · simp [c1, c2, c3, Duo.result] at ho
                · simp [c1, c2, c3, Duo.result] at ho
          · exact hx.2
          · simp [Duo.result, hq] at hx
      · simp only [Duo.step]
        obtain ⟨w1, w2⟩ := childStep_work sys status s
        rw [childStep_clock, ← w1]
        refine ⟨p2, fun hf => w2 (p3 hf), fun o ho => ?_⟩
        have hr : s.result = some (.ok o) := by
          rw [Duo.result, childStep_runner] at ho
          exact ho
        have hc := p4 o hr
        rw [childStep, hc]
        split <;> simp [hc]
      · simp only [Duo.step]
        obtain ⟨w1, w2, w3⟩ := tick_work s
        have hclock : (tick s).clock = s.clock + 1 := rfl
        rw [hclock]
        exact ⟨by omega, fun hf => w2 (p3 hf), fun o ho => w3 (p4 o ho)⟩) turns
      { runner := .writing code, child := child }
      ⟨FInv.init child code, Nat.le_add_right _ _, id, fun o ho => by cases ho⟩
    obtain ⟨_, k2, k3, k4⟩ := key
    rw [k4 out h, run_clock] at k2
    refine ⟨by simpa [allWork] using k2, fun hf => ?_⟩
    have := k3 hf
    rw [k4 out h] at this
    cases this
  · rw [h1] at h
    simp only [Duo.result, run_finished (s := { runner := .finished 0 (.error e), child := [], exited := some none }) rfl] at h
    cases h

example : ((startFormatter (exSystem 4) [['x']] [1] [.work 3, .out 7]).run (exSystem 4) 5 (some 0)
    ([.runner, .runner] ++ List.replicate 3 .time ++ List.replicate 3 .child ++ [.runner])).result = some (.ok [7]) := by decide

/-- **C50.** A child that has exited with success gives its output at the next poll. -/
theorem c50_ok (sys : System) (secs : Nat) (command : List (List Char)) (code : List Byte)
    (child : List Act) (turns round : List Turn) (s : Duo)
    (hs : s = (startFormatter sys command code child).run sys secs (some 0) turns)
    (hx : s.exited = some (some 0)) (hr : s.result = none) (hw : s.stdinOpen = false)
    (hu : sys.isUtf8 (allOut child) = true) (hf : ∀ t, sys.waitFails t = false) (hround : IsRound round) :
    (s.run sys secs (some 0) round).result = some (.ok (allOut child)) := by
  rcases start_cases sys command code child with h | ⟨e, h, he⟩
  · have hi : FInv sys secs (some 0) child code s := by rw [hs, h]; exact (FInv.init child code).run turns
    obtain ⟨a, w, n, hq⟩ : ∃ a w n, s.runner = .waiting a w n := by
      cases hq : s.runner with
      | writing b => simp [Duo.stdinOpen, hq] at hw
      | finished n r => simp [Duo.result, hq] at hr
      | waiting a w n => exact ⟨a, w, n, rfl⟩
    have hp : s.pipeOut = allOut child := by
      have := hi.outs
      rcases hi.out with h1 | h1 | h1
      · rw [hx] at h1; cases h1
      · rw [h1.2] at this; simpa [allOut] using this
      · rw [hr] at h1; cases h1
    have key := run_induct (sys := sys) (secs := secs) (status := some 0)
      (P := fun s => s.exited = some (some 0) ∧ s.pipeOut = allOut child ∧
        (s.runner = .waiting a w n ∨ s.result = some (.ok (allOut child)))) (fun s t hs => by
        obtain ⟨p1, p2, p3⟩ := hs
        cases t
        · rcases p3 with p3 | p3
          · simp only [Duo.step, runnerStep, p3, p1, hf, Status.success]
            split
            · exact ⟨p1, p2, .inl p3⟩
            · simp [p1, p2, Duo.result, hu]
          · refine ⟨?_, ?_, .inr ?_⟩ <;>
            · unfold Duo.result at p3
              cases hk : s.runner with
              | finished m r => simp only [Duo.step, runnerStep, hk]; first | exact p1 | exact p2 | (simp only [Duo.result, hk] at *; exact p3)
              | _ => rw [hk] at p3; cases p3
        · simp only [Duo.step]
          rw [childStep_exited (by rw [p1]; rfl)]
          exact ⟨p1, p2, p3⟩
        · exact ⟨p1, p2, p3⟩) round s ⟨hx, hp, .inl hq⟩
    rcases key.2.2 with h1 | h1
    · rcases round_waiting hi hq hround with ⟨m, r, h2⟩ | ⟨w', n', h2, h3⟩
      · rw [h1] at h2; cases h2
      · rw [h1] at h2; cases h2; omega
    · exact h1
  · have hf : s.result = some (.error e) := by
      rw [hs, h]
      simp only [Duo.result, run_finished (s := { runner := .finished 0 (.error e), child := [], exited := some none }) rfl]
    rw [hf] at hr; cases hr

/-- **C50.** A timeout is reported only if so much time has passed since the end of the input was
written, and never for a child that has exited before. -/
theorem c50_timeout (sys : System) (secs : Nat) (command : List (List Char)) (code : List Byte)
    (child : List Act) (status : Status) (before after : List Turn) (s : Duo)
    (hs : s = (startFormatter sys command code child).run sys secs status before)
    (ht : (s.run sys secs status after).result = some (.error .timeout)) (hr : s.result = none) :
    s.exited = none ∧
      (s.stdinOpen = true → secs * 1000 ≤ after.count .time) := by
  constructor
  · cases hx : s.exited with
    | none => rfl
    | some st =>
      exfalso
      have key := run_induct (sys := sys) (secs := secs) (status := status)
        (P := fun s => s.exited.isSome = true ∧ s.result ≠ some (.error .timeout)) (fun s t hs => by
        obtain ⟨p1, p2⟩ := hs
        cases t
        · obtain ⟨st, p1⟩ := Option.isSome_iff_exists.mp p1
          simp only [Duo.step, runnerStep, p1]
          repeat' split
          all_goals simp_all [Duo.result]
          all_goals (split <;> simp)
        · simp only [Duo.step]
          rw [childStep_exited p1]
          exact ⟨p1, p2⟩
        · exact ⟨p1, p2⟩) after s ⟨by rw [hx]; rfl, by rw [hr]; simp⟩
      exact key.2 ht
  · intro ho
    have hclock := run_clock (sys := sys) (secs := secs) (status := status) after s
    generalize hc0 : s.clock = c0 at hclock
    have key := run_induct (sys := sys) (secs := secs) (status := status)
      (P := fun s => c0 ≤ s.clock ∧ (∀ a w n, s.runner = .waiting a w n → c0 ≤ a) ∧
        (s.result = some (.error .timeout) → c0 + secs * 1000 ≤ s.clock)) (fun s t hs => by
        obtain ⟨p1, p2, p3⟩ := hs
        have hk := step_clock (sys := sys) (secs := secs) (status := status) s t
        refine ⟨by omega, ?_, ?_⟩
        · intro a w n h
          cases t
          · cases hq : s.runner with
            | writing bs =>
              cases bs with
              | nil => simp only [Duo.step, runnerStep, hq] at h; cases h; exact p1
              | cons b bs =>
                simp only [Duo.step, runnerStep, hq] at h
                split at h
                · cases h
                · split at h
                  · cases h
                  · rw [hq] at h; cases h
            | waiting a' w' n' =>
              rcases step_waiting hq .runner (sys := sys) (secs := secs) (status := status) with ⟨m, r, h2⟩ | ⟨w2, n2, h2, _⟩
              · rw [h2] at h; cases h
              · rw [h2] at h; cases h; exact p2 _ _ _ hq
            | finished m r => rw [step_finished hq] at h; cases h
          · simp only [Duo.step, childStep_runner] at h; exact p2 _ _ _ h
          · exact p2 _ _ _ h
        · intro h
          have hmono : s.clock ≤ (s.step sys secs status t).clock := by omega
          cases hq : s.runner with
          | finished m r =>
            have : s.result = some (.error .timeout) := by
              simp only [Duo.result, step_finished hq] at h ⊢
              simp only [hq]; exact h
            have := p3 this
            omega
          | writing bs =>
            exfalso
            cases t
            · cases bs with
              | nil => simp [Duo.step, runnerStep, hq, Duo.result] at h
              | cons b bs =>
                simp only [Duo.step, runnerStep, hq] at h
                split at h
                · cases h
                · split at h
                  · cases h
                  · simp [Duo.result, hq] at h
            · simp [Duo.step, Duo.result, childStep_runner, hq] at h
            · simp [Duo.step, Duo.result, tick_runner, hq] at h
          | waiting a w n =>
            have ha := p2 _ _ _ hq
            cases t
            · simp only [Duo.step, runnerStep, hq] at h
              split at h
              · simp [Duo.result, hq] at h
              · split at h
                · cases h
                · split at h
                  · split at h
                    · simp only [Duo.result] at h; split at h <;> simp at h
                    · cases h
                  · split at h
                    · next h' => simp only [Duo.step, runnerStep_clock]; omega
                    · cases h
            · simp [Duo.step, Duo.result, childStep_runner, hq] at h
            · simp [Duo.step, Duo.result, tick_runner, hq] at h) after s
        ⟨by omega, by intro a w n h; simp [Duo.stdinOpen, h] at ho, by rw [hr]; intro h; cases h⟩
    have := key.2.2 ht
    omega

/-- **C50.** The process is polled at most 20 times for each second and once more. -/
theorem c50_polls (sys : System) (secs : Nat) (command : List (List Char)) (code : List Byte)
    (child : List Act) (status : Status) (turns : List Turn) :
    ((startFormatter sys command code child).run sys secs status turns).polls ≤ 20 * secs + 1 := by
  rcases start_cases sys command code child with h | ⟨e, h, he⟩
  · rw [h]
    have hi := ((FInv.init child code).run turns (sys := sys) (secs := secs) (status := status)).polls
    generalize Duo.run sys secs status { runner := .writing code, child := child } turns = s at hi
    unfold Duo.polls
    cases hq : s.runner with
    | writing b => exact Nat.zero_le _
    | finished n r => rw [hq] at hi; exact hi
    | waiting a w n =>
      rw [hq] at hi
      obtain ⟨p1, p2, _⟩ := hi
      by_cases h0 : 0 < n
      · have := p2 h0; simp only []; omega
      · simp only []; omega
  · rw [h]
    simp only [Duo.polls, run_finished (s := { runner := .finished 0 (.error e), child := [], exited := some none }) rfl]
    omega

/-- A child that neither reads nor ends, and more code than a pipe holds. -/
theorem hang (sys : System) (secs : Nat) (status : Status) (code : List Byte) (acts : List Act)
    (h : sys.cap < code.length) (turns : List Turn) :
    (Duo.run sys secs status { runner := .writing code, child := .forever :: acts } turns).result = none := by
  have key := run_induct (sys := sys) (secs := secs) (status := status)
    (P := fun s => s.exited = none ∧ s.child = .forever :: acts ∧ s.pipeIn.length ≤ sys.cap ∧
      ∃ bs, s.runner = .writing bs ∧ s.pipeIn.length + bs.length = code.length) (fun s t hs => by
      obtain ⟨p1, p2, p3, bs, p4, p5⟩ := hs
      cases t
      · cases bs with
        | nil => simp at p5; omega
        | cons b bs =>
          simp only [Duo.step, runnerStep, p4, p1, Option.isSome_none, Bool.false_eq_true, if_false]
          by_cases hl : s.pipeIn.length < sys.cap
          · rw [if_pos hl]
            refine ⟨rfl, p2, by simp; omega, bs, rfl, by simp at p5 ⊢; omega⟩
          · rw [if_neg hl]
            exact ⟨p1, p2, p3, b :: bs, p4, p5⟩
      · simp only [Duo.step, childStep, p1, p2]
        exact ⟨p1, p2, p3, bs, p4, p5⟩
      · exact ⟨p1, by simp only [Duo.step, tick, p2], p3, bs, p4, p5⟩) turns
    { runner := .writing code, child := .forever :: acts } ⟨rfl, rfl, Nat.zero_le _, code, rfl, by simp⟩
  obtain ⟨_, _, _, bs, hq, _⟩ := key
  simp only [Duo.result, hq]

/-- **C50.** The call need not return, however long one waits: the time limit does not hold
while the code is written to the process. -/
theorem c50_returns_false : ¬ ∀ (sys : System) (secs : Nat) (command : List (List Char)) (code : List Byte)
    (child : List Act) (status : Status), ∃ n : Nat, ∀ rounds : List (List Turn), (∀ ts ∈ rounds, IsRound ts) →
    n ≤ rounds.length →
    ((startFormatter sys command code child).run sys secs status rounds.flatten).result.isSome = true := by
  intro h
  obtain ⟨n, hn⟩ := h (exSystem 2) 5 [['x']] [1, 2, 3] [.forever] (some 0)
  have := hn (List.replicate n (List.replicate 50 .time ++ .child :: [] ++ [.runner])) (by
    intro ts hts
    rw [List.eq_of_mem_replicate hts]
    exact ⟨_, _, rfl, by decide⟩) (by simp)
  have h2 := hang (exSystem 2) 5 (some 0) [1, 2, 3] [] (by decide)
    (List.replicate n (List.replicate 50 .time ++ .child :: [] ++ [.runner])).flatten
  rw [show startFormatter (exSystem 2) [['x']] [1, 2, 3] [.forever] =
    { runner := .writing [1, 2, 3], child := [.forever] } from rfl, h2] at this
  cases this

/-- **C50.** It does return if the code fits in a pipe, or if the child first reads its input; the
number of rounds is known in advance, whatever the child does then. -/
theorem c50_returns_partial (sys : System) (secs : Nat) (command : List (List Char)) (code : List Byte)
    (child : List Act) (status : Status)
    (h : code.length ≤ sys.cap ∨ 0 < sys.cap ∧ ∃ acts, child = .readAll :: acts)
    (rounds : List (List Turn)) (hr : ∀ ts ∈ rounds, IsRound ts) (hn : code.length + 20 * secs + 2 ≤ rounds.length) :
    ((startFormatter sys command code child).run sys secs status rounds.flatten).result.isSome = true := by
  rcases start_cases sys command code child with h1 | ⟨e, h1, he⟩
  · rw [h1]
    obtain ⟨n, r, hf⟩ := rounds_finish rounds hr { runner := .writing code, child := child }
      (FInv.init child code (sys := sys) (secs := secs) (status := status)) (by
        intro bs hb
        cases hb
        rcases h with h | ⟨h, acts, h2⟩
        · left; simpa using h
        · right; exact ⟨rfl, Nat.zero_le _, h, acts, h2⟩) hn
    simp only [Duo.result, hf, Option.isSome_some]
  · rw [h1]
    simp only [Duo.result, run_finished (s := { runner := .finished 0 (.error e), child := [], exited := some none }) rfl,
      Option.isSome_some]

example : ((startFormatter (exSystem 4) [['x']] [1, 2] [.readAll, .work 3, .out 7, .err 9]).run (exSystem 4) 1 (some 0)
      ([.runner, .runner, .runner] ++ List.replicate 9 .child ++ List.replicate 50 .time ++ List.replicate 9 .child ++
        [.runner])).result = some (.ok [7]) ∧
    ((startFormatter (exSystem 4) [['x']] [1, 2] [.readAll, .work 3, .out 7, .err 9]).run (exSystem 4) 1 (some 2)
      ([.runner, .runner, .runner] ++ List.replicate 9 .child ++ List.replicate 50 .time ++ List.replicate 9 .child ++
        [.runner])).result = some (.error (.nonZeroExit (some 2) [9])) ∧
    ((startFormatter (exSystem 4) [['x']] [1, 2] [.forever]).run (exSystem 4) 1 (some 0)
      (List.replicate 30 (List.replicate 50 .time ++ [.child, .runner])).flatten).result = some (.error .timeout) ∧
    ((startFormatter (exSystem 4) [['x']] [1, 2] [.forever]).run (exSystem 4) 1 (some 0)
      (List.replicate 30 (List.replicate 50 .time ++ [.child, .runner])).flatten).polls = 20 ∧
    ((startFormatter (exSystem 4) [['x']] [1, 2] []).run (exSystem 4) 1 (some 0) [.runner, .child, .runner]).result =
      some (.error .stdin) := by decide +kernel

/-! ### C69: large code blocks -/

/-- **C69.** A child whose output does not fit in a pipe never gives an output: nobody reads while
it runs. -/
theorem c69_output (sys : System) (secs : Nat) (command : List (List Char)) (code : List Byte)
    (child : List Act) (status : Status) (h : sys.cap < (allOut child).length) (turns : List Turn) (out : List Byte) :
    ((startFormatter sys command code child).run sys secs status turns).result ≠ some (.ok out) := by
  intro hr
  have h1 := (c50_result sys secs command code child status turns _ rfl).1 out hr
  rcases start_cases sys command code child with h2 | ⟨e, h2, he⟩
  · rw [h2] at hr
    have key := run_induct (sys := sys) (secs := secs) (status := status)
      (P := fun s => FInv sys secs status child code s ∧ ∀ o, s.result = some (.ok o) → o.length ≤ sys.cap) (fun s t hs => by
      obtain ⟨p1, p2⟩ := hs
      refine ⟨p1.run [t], fun o ho => ?_⟩
      cases hq : s.runner with
      | finished n r =>
        apply p2
        simp only [Duo.result, step_finished hq] at ho
        simp only [Duo.result, hq]
        exact ho
      | writing bs =>
        exfalso
        cases t
        · cases bs with
          | nil => simp [Duo.step, runnerStep, hq, Duo.result] at ho
          | cons b bs =>
            simp only [Duo.step, runnerStep, hq] at ho
            split at ho
            · cases ho
            · split at ho
              · cases ho
              · simp [Duo.result, hq] at ho
        · simp [Duo.step, Duo.result, childStep_runner, hq] at ho
        · simp [Duo.step, Duo.result, tick_runner, hq] at ho
      | waiting a w n =>
        cases t
        · simp only [Duo.step, runnerStep, hq] at ho
          split at ho
          · simp [Duo.result, hq] at ho
          · split at ho
            · cases ho
            · split at ho
              · split at ho
                · simp only [Duo.result] at ho
                  split at ho
                  · simp only [Option.some.injEq, Formatted.ok.injEq] at ho
                    rw [← ho]; exact p1.cap
                  · simp at ho
                · cases ho
              · split at ho
                · cases ho
                · cases ho
        · simp [Duo.step, Duo.result, childStep_runner, hq] at ho
        · simp [Duo.step, Duo.result, tick_runner, hq] at ho) turns
      { runner := .writing code, child := child } ⟨FInv.init child code, by intro o ho; cases ho⟩
    have := key.2 out hr
    rw [h1.1] at this
    omega
  · rw [h2] at hr
    simp [Duo.result, run_finished (s := { runner := .finished 0 (.error e), child := [], exited := some none }) rfl] at hr

/-- **C69.** A child that copies its input, as `cat` does, never returns if the code is longer
than both pipes: each of the two waits for the other, without a time limit. -/
theorem c69_deadlock (sys : System) (secs : Nat) (status : Status) (command : List (List Char)) (code : List Byte)
    (hc : command ≠ []) (hsp : sys.canSpawn = true) (h : 2 * sys.cap + 1 < code.length) (turns : List Turn) :
    ((startFormatter sys command code (catActs code)).run sys secs status turns).result = none := by
  have hst : startFormatter sys command code (catActs code) = { runner := .writing code, child := catActs code } := by
    rw [startFormatter, if_neg hc, if_pos hsp]
  have key := run_induct (sys := sys) (secs := secs) (status := status)
    (P := fun s => s.exited = none ∧ s.pipeIn.length ≤ sys.cap ∧ s.pipeOut.length ≤ sys.cap ∧
      ∃ bs rem, s.runner = .writing bs ∧
        (s.child = catActs rem ∧ rem.length + s.pipeOut.length = code.length ∧
          s.pipeIn.length + bs.length + s.pipeOut.length = code.length ∨
        ∃ b, s.child = .out b :: catActs rem ∧ rem.length + 1 + s.pipeOut.length = code.length ∧
          s.pipeIn.length + bs.length + s.pipeOut.length + 1 = code.length)) (fun s t hs => by
      obtain ⟨p1, p2, p3, bs, rem, p4, p5⟩ := hs
      cases t
      · cases bs with
        | nil => exfalso; rcases p5 with ⟨_, _, p⟩ | ⟨_, _, _, p⟩ <;> simp at p <;> omega
        | cons b bs =>
          simp only [Duo.step, runnerStep, p4, p1, Option.isSome_none, Bool.false_eq_true, if_false]
          by_cases hl : s.pipeIn.length < sys.cap
          · rw [if_pos hl]
            refine ⟨rfl, by simp; omega, p3, bs, rem, rfl, ?_⟩
            rcases p5 with ⟨q1, q2, q3⟩ | ⟨c, q1, q2, q3⟩
            · left; exact ⟨q1, q2, by simp at q3 ⊢; omega⟩
            · right; exact ⟨c, q1, q2, by simp at q3 ⊢; omega⟩
          · rw [if_neg hl]
            exact ⟨p1, p2, p3, b :: bs, rem, p4, p5⟩
      · have ho : s.stdinOpen = true := by simp [Duo.stdinOpen, p4]
        rcases p5 with ⟨q1, q2, q3⟩ | ⟨c, q1, q2, q3⟩
        · cases rem with
          | nil => simp at q2; omega
          | cons r rem =>
            have q1' : s.child = .read :: .out r :: catActs rem := by rw [q1]; simp [catActs]
            simp only [Duo.step, childStep, p1, q1', ho]
            cases hp : s.pipeIn with
            | nil =>
              exact ⟨p1, p2, p3, bs, r :: rem, p4, .inl ⟨q1, q2, q3⟩⟩
            | cons x xs =>
              rw [hp] at p2 q3
              refine ⟨rfl, by simp at p2 ⊢; omega, p3, bs, rem, p4, .inr ⟨r, rfl, ?_, ?_⟩⟩
              · simp at q2 ⊢; omega
              · simp at q3 ⊢; omega
        · simp only [Duo.step, childStep, p1, q1]
          by_cases hl : s.pipeOut.length < sys.cap
          · simp only [hl, if_true]
            refine ⟨rfl, p2, by simp; omega, bs, rem, p4, .inl ⟨rfl, ?_, ?_⟩⟩
            · simp; omega
            · simp; omega
          · simp only [hl, if_false]
            exact ⟨p1, p2, p3, bs, rem, p4, .inr ⟨c, q1, q2, q3⟩⟩
      · have hcld : ∀ acts, s.child = catActs acts ∨ (∃ b, s.child = .out b :: catActs acts) → (tick s).child = s.child := by
          intro acts ha
          rcases ha with ha | ⟨b, ha⟩
          · cases acts with
            | nil => simp only [tick, ha]; rfl
            | cons x xs =>
              have : s.child = .read :: .out x :: catActs xs := by rw [ha]; simp [catActs]
              simp only [tick, this]
          · simp only [tick, ha]
        refine ⟨p1, p2, p3, bs, rem, p4, ?_⟩
        rcases p5 with ⟨q1, q2, q3⟩ | ⟨c, q1, q2, q3⟩
        · left; exact ⟨by simp only [Duo.step]; rw [hcld rem (.inl q1), q1], q2, q3⟩
        · right; exact ⟨c, by simp only [Duo.step]; rw [hcld rem (.inr ⟨c, q1⟩), q1], q2, q3⟩) turns
    { runner := .writing code, child := catActs code } ⟨rfl, Nat.zero_le _, Nat.zero_le _, code, code, rfl,
      .inl ⟨rfl, by simp, by simp⟩⟩
  rw [hst]
  obtain ⟨_, _, _, bs, _, hq, _⟩ := key
  simp only [Duo.result, hq]

/-- **C69.** So formatting a block with `cat` does not always give the block. -/
theorem c69_size_false : ¬ ∀ (sys : System) (secs : Nat) (code : List Byte), 0 < sys.cap → sys.canSpawn = true →
    (∀ bs, sys.isUtf8 bs = true) → (∀ t, sys.waitFails t = false) → 0 < secs →
    ∃ turns, ((startFormatter sys [['c', 'a', 't']] code (catActs code)).run sys secs (some 0) turns).result =
      some (.ok code) := by
  intro h
  obtain ⟨turns, ht⟩ := h (exSystem 1) 5 [1, 2, 3, 4] (by decide) rfl (fun _ => rfl) (fun _ => rfl) (by decide)
  rw [c69_deadlock (exSystem 1) 5 (some 0) [['c', 'a', 't']] [1, 2, 3, 4] (by simp) rfl (by decide) turns] at ht
  cases ht

example : ((startFormatter (exSystem 4) [['c', 'a', 't']] [1, 2, 3] (catActs [1, 2, 3])).run (exSystem 4) 1 (some 0)
    ((List.replicate 9 [Turn.runner, .child]).flatten ++ List.replicate 50 .time ++ [.runner])).result = some (.ok [1, 2, 3]) := by decide +kernel

end Hongdown.Props
