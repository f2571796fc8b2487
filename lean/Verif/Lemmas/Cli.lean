import Verif.Spec.Cli
import Verif.Lemmas.Str

set_option linter.unusedSimpArgs false

namespace Hongdown
open Model Spec

section
variable (fmt : Fmt) (faults : Faults) (write check : Bool) (d0 : Disk)

/-- What a file gives in the end. -/
def finalDisk (n : Name) : Option (List Char) :=
  if write = true ∧ check = false then written fmt faults d0 n else d0 n

def finalMsgs (n : Name) : List Msg :=
  if check then checkMessages fmt d0 n
  else if write then writeMessages fmt faults d0 n
  else warningsOf fmt d0 n ++ (if d0 n = none then [.readError n] else [])

/-- What is known about a file in each phase. -/
def TaskOk (n : Name) (d : Option (List Char)) : Phase → Prop
  | .start => d = d0 n
  | .loaded input => d0 n = some input ∧ d = d0 n
  | .writing w rest => write = true ∧ check = false ∧ ∃ input, d0 n = some input ∧ (fmt input).1 ≠ input ∧
      faults.denied n = false ∧ (fmt input).1 = (fmt input).1.take w ++ rest ∧
      w + rest.length = (fmt input).1.length ∧ d = some ((fmt input).1.take w) ∧
      ∀ k, faults.failAt n = some k → w ≤ k
  | .done => d = finalDisk fmt faults write check d0 n

/-- Whether a finished file counts as an error. -/
def errOf : Name × Phase → Bool
  | (n, .done) => match outcome fmt faults d0 n with
    | .unreadable => true
    | .denied => write && !check
    | .cut _ => write && !check
    | _ => false
  | _ => false

def unfOf : Name × Phase → Bool
  | (n, .done) => check && (match d0 n with
    | some input => (fmt input).1 ≠ input
    | none => false)
  | _ => false

def outOf : Name × Phase → List Name
  | (n, .done) => if write = true ∧ check = false ∧ outcome fmt faults d0 n = .differs then [n] else []
  | _ => []

def msgOf : Name × Phase → List Msg
  | (_, .start) => []
  | (_, .loaded _) => []
  | (n, .writing _ _) => warningsOf fmt d0 n
  | (n, .done) => finalMsgs fmt faults write check d0 n

structure ParInv (files : List Name) (s : Par) : Prop where
  len : s.phases.length = files.length
  other : ∀ n, n ∉ files → s.disk n = d0 n
  task : ∀ x ∈ files.zip s.phases, TaskOk fmt faults write check d0 x.1 (s.disk x.1) x.2
  err : s.hasError = (files.zip s.phases).any (errOf fmt faults write check d0)
  unf : s.allFormatted = !((files.zip s.phases).any (unfOf fmt check d0))
  out : s.stdout.Perm ((files.zip s.phases).flatMap (outOf fmt faults write check d0))
  msg : s.stderr.Perm ((files.zip s.phases).flatMap (msgOf fmt faults write check d0))

/-- A list around a position. -/
theorem split_at {α : Type} {l : List α} {i : Nat} {x : α} (h : l[i]? = some x) :
    ∃ a b, l = a ++ x :: b ∧ a.length = i ∧ ∀ y, l.set i y = a ++ y :: b := by
  induction l generalizing i with
  | nil => simp at h
  | cons c l ih =>
    cases i with
    | zero => simp at h; subst h; exact ⟨[], l, rfl, rfl, fun y => rfl⟩
    | succ i =>
      simp at h
      obtain ⟨a, b, e, hl, hs⟩ := ih h
      exact ⟨c :: a, b, by simp [e], by simp [hl], fun y => by simp [hs]⟩

/-- The files with their phases around a position. -/
theorem zip_split {files : List Name} {ps : List Phase} {i : Nat} {n : Name} {ph : Phase}
    (hf : files[i]? = some n) (hp : ps[i]? = some ph) :
    ∃ a b, files.zip ps = a ++ (n, ph) :: b ∧ (∀ q, files.zip (ps.set i q) = a ++ (n, q) :: b) ∧
      (files.Nodup → ∀ x ∈ a ++ b, x.1 ≠ n) := by
  obtain ⟨f1, f2, ef, hf1, _⟩ := split_at hf
  obtain ⟨p1, p2, ep, hp1, hps⟩ := split_at hp
  have hl : f1.length = p1.length := by omega
  refine ⟨f1.zip p1, f2.zip p2, ?_, ?_, ?_⟩
  · rw [ef, ep, List.zip_append hl, List.zip_cons_cons]
  · intro q
    rw [hps, ef, List.zip_append hl, List.zip_cons_cons]
  · intro hn x hx
    rw [ef] at hn
    obtain ⟨h1, h2, h3⟩ := List.nodup_append.mp hn
    rw [List.mem_append] at hx
    rcases hx with hx | hx
    · exact h3 x.1 (List.of_mem_zip hx).1 n (by simp)
    · intro e
      have := (List.nodup_cons.mp h2).1
      apply this
      rw [← e]
      exact (List.of_mem_zip hx).1

/-- One file makes progress. -/
theorem ParInv.update {files : List Name} {s t : Par} {i : Nat} {n : Name} {ph q : Phase}
    (h : ParInv fmt faults write check d0 files s) (hf : files[i]? = some n) (hp : s.phases[i]? = some ph)
    (hph : ph ≠ .done)
    (htp : t.phases = s.phases.set i q)
    (hdisk : ∀ m, m ≠ n → t.disk m = s.disk m)
    (hsame : files.Nodup ∨ t.disk n = s.disk n)
    (hok : TaskOk fmt faults write check d0 n (t.disk n) q)
    (herr : t.hasError = (s.hasError || errOf fmt faults write check d0 (n, q)))
    (hunf : t.allFormatted = (s.allFormatted && !unfOf fmt check d0 (n, q)))
    (hout : t.stdout = s.stdout ++ outOf fmt faults write check d0 (n, q))
    (hmsg : ∃ more, t.stderr = s.stderr ++ more ∧
      msgOf fmt faults write check d0 (n, q) = msgOf fmt faults write check d0 (n, ph) ++ more) :
    ParInv fmt faults write check d0 files t := by
  obtain ⟨a, b, e1, e2, e3⟩ := zip_split hf hp
  have e4 : files.zip t.phases = a ++ (n, q) :: b := by rw [htp]; exact e2 q
  have hd : ∀ m, t.disk m = s.disk m ∨ (m = n ∧ files.Nodup) := by
    intro m
    by_cases hm : m = n
    · subst hm
      rcases hsame with h' | h'
      · exact .inr ⟨rfl, h'⟩
      · exact .inl h'
    · exact .inl (hdisk m hm)
  refine ⟨?_, ?_, ?_, ?_, ?_, ?_, ?_⟩
  · rw [htp, List.length_set, h.len]
  · intro m hm
    rw [hdisk m (by
      rintro rfl
      exact hm (List.mem_of_getElem? hf))]
    exact h.other m hm
  · intro x hx
    rw [e4] at hx
    have hold := h.task
    rw [e1] at hold
    simp only [List.mem_append, List.mem_cons] at hx hold
    have hab : x ∈ a ∨ x ∈ b → TaskOk fmt faults write check d0 x.1 (t.disk x.1) x.2 := by
      intro hx'
      rcases hd x.1 with h' | ⟨h', hn⟩
      · rw [h']
        exact hold x (by rcases hx' with h | h <;> simp [h])
      · exact absurd h' (e3 hn x (by rw [List.mem_append]; exact hx'))
    rcases hx with hx | rfl | hx
    · exact hab (.inl hx)
    · exact hok
    · exact hab (.inr hx)
  · have hz : errOf fmt faults write check d0 (n, ph) = false := by
      cases ph <;> first | rfl | exact absurd rfl hph
    rw [e4, herr, h.err, e1]
    simp only [List.any_append, List.any_cons, hz]
    simp only [Bool.false_or]
    cases (a.any (errOf fmt faults write check d0)) <;> cases (b.any (errOf fmt faults write check d0)) <;>
      cases errOf fmt faults write check d0 (n, q) <;> rfl
  · have hz : unfOf fmt check d0 (n, ph) = false := by
      cases ph <;> first | rfl | exact absurd rfl hph
    rw [e4, hunf, h.unf, e1]
    simp only [List.any_append, List.any_cons, hz]
    cases (a.any (unfOf fmt check d0)) <;> cases (b.any (unfOf fmt check d0)) <;>
      cases unfOf fmt check d0 (n, q) <;> rfl
  · have hz : outOf fmt faults write check d0 (n, ph) = [] := by
      cases ph <;> first | rfl | exact absurd rfl hph
    have := h.out
    rw [e1] at this
    rw [e4, hout]
    simp only [List.flatMap_append, List.flatMap_cons, hz, List.nil_append] at this ⊢
    refine (this.append_right _).trans ?_
    rw [List.append_assoc]
    exact (List.Perm.refl _).append List.perm_append_comm
  · obtain ⟨more, hm1, hm2⟩ := hmsg
    have := h.msg
    rw [e1] at this
    rw [e4, hm1]
    simp only [List.flatMap_append, List.flatMap_cons, hm2] at this ⊢
    refine (this.append_right _).trans ?_
    rw [List.append_assoc, List.append_assoc, List.append_assoc]
    exact (List.Perm.refl _).append ((List.Perm.refl _).append List.perm_append_comm)

theorem ParInv.init (files : List Name) : ParInv fmt faults write check d0 files (Par.init files d0) := by
  have hz : ∀ x ∈ files.zip (Par.init files d0).phases, x.2 = .start := by
    intro x hx
    have := (List.of_mem_zip hx).2
    simp [Par.init] at this
    exact this.2.symm ▸ rfl
  have hany : ∀ q : Name × Phase → Bool, (∀ n, q (n, .start) = false) →
      (files.zip (Par.init files d0).phases).any q = false := by
    intro q hq
    rw [List.any_eq_false]
    intro x hx
    have := hz x hx
    obtain ⟨a, b⟩ := x
    simp only at this
    subst this
    simp [hq]
  have hflat : ∀ {β : Type} (q : Name × Phase → List β), (∀ n, q (n, .start) = []) →
      (files.zip (Par.init files d0).phases).flatMap q = [] := by
    intro β q hq
    rw [List.flatMap_eq_nil_iff]
    intro x hx
    have := hz x hx
    obtain ⟨a, b⟩ := x
    simp only at this
    subst this
    exact hq _
  refine ⟨by simp [Par.init], fun _ _ => rfl, ?_, ?_, ?_, ?_, ?_⟩
  · intro x hx
    rw [hz x hx]
    rfl
  · rw [hany _ (fun _ => rfl)]; rfl
  · rw [hany _ (fun _ => rfl)]; rfl
  · rw [hflat _ (fun _ => rfl)]; exact List.Perm.refl _
  · rw [hflat _ (fun _ => rfl)]; exact List.Perm.refl _

theorem overwriteAt_end (s : List Char) (c : Char) : overwriteAt s s.length c = s ++ [c] := by
  simp [overwriteAt]

theorem Disk.set_other (d : Disk) {n m : Name} (s : List Char) (h : m ≠ n) : d.set n s m = d m := by
  simp [Disk.set, h]

theorem Disk.set_same (d : Disk) (n : Name) (s : List Char) : d.set n s n = some s := by
  simp [Disk.set]

theorem ParInv.step {files : List Name} {s : Par} (i : Nat) (hn : write = true → check = false → files.Nodup)
    (h : ParInv fmt faults write check d0 files s) :
    ParInv fmt faults write check d0 files (s.step fmt faults files write check i) := by
  rw [Par.step.eq_def]
  split
  · rename_i n hf hp
    have ht : TaskOk fmt faults write check d0 n (s.disk n) .start := by
      obtain ⟨a, b, e1, _⟩ := zip_split hf hp
      exact h.task (n, .start) (by rw [e1]; simp)
    have ht' : s.disk n = d0 n := ht
    split
    · rename_i hd
      rw [ht'] at hd
      have ho : outcome fmt faults d0 n = .unreadable := by simp [outcome, hd]
      refine h.update fmt faults write check d0 (q := .done) hf hp (by simp) rfl (fun _ _ => rfl) (.inr rfl) ?_ ?_ ?_ ?_ ?_
      · show s.disk n = finalDisk fmt faults write check d0 n
        rw [ht', finalDisk]
        split
        · simp [written, ho]
        · rfl
      · simp [errOf, ho]
      · simp [unfOf, hd]
      · simp [outOf, ho]
      · refine ⟨[.readError n], rfl, ?_⟩
        simp only [msgOf, finalMsgs, checkMessages, writeMessages, warningsOf, hd, ho, List.nil_append]
        cases check <;> cases write <;> simp
    · rename_i input hd
      rw [ht'] at hd
      refine h.update fmt faults write check d0 (q := .loaded input) hf hp (by simp) rfl (fun _ _ => rfl) (.inr rfl)
        ⟨hd, ht'⟩ ?_ ?_ ?_ ⟨[], by simp, rfl⟩
      · simp [errOf]
      · simp [unfOf]
      · simp [outOf]
  · rename_i n input hf hp
    have ht : d0 n = some input ∧ s.disk n = d0 n := by
      obtain ⟨a, b, e1, _⟩ := zip_split hf hp
      exact h.task (n, .loaded input) (by rw [e1]; simp)
    obtain ⟨hd, ht'⟩ := ht
    by_cases hc : check = true
    · simp only [hc, if_true]
      subst hc
      by_cases hi : input = (fmt input).1
      · rw [if_neg (by simpa using hi)]
        have ho : outcome fmt faults d0 n = .formatted := by simp [outcome, hd, ← hi]
        refine h.update fmt faults write true d0 (q := .done) hf hp (by simp) rfl (fun _ _ => rfl) (.inr rfl) ?_ ?_ ?_ ?_ ?_
        · show s.disk n = finalDisk fmt faults write true d0 n
          simp [ht', finalDisk]
        · simp [errOf, ho]
        · simp [unfOf, hd, ← hi]
        · simp [outOf, ho]
        · refine ⟨(fmt input).2.map (Msg.warning n), rfl, ?_⟩
          simp [msgOf, finalMsgs, checkMessages, warningsOf, hd, ← hi]
      · rw [if_pos (by simpa using hi)]
        have ho : outcome fmt faults d0 n ≠ .unreadable := by
          simp only [outcome, hd]
          repeat' split
          all_goals simp
        have hi' : (fmt input).1 ≠ input := fun e => hi e.symm
        refine h.update fmt faults write true d0 (q := .done) hf hp (by simp) rfl (fun _ _ => rfl) (.inr rfl) ?_ ?_ ?_ ?_ ?_
        · show s.disk n = finalDisk fmt faults write true d0 n
          simp [ht', finalDisk]
        · simp only [errOf]
          revert ho
          cases outcome fmt faults d0 n <;> simp
        · simp [unfOf, hd, hi']
        · simp [outOf]
        · refine ⟨(fmt input).2.map (Msg.warning n) ++ [.notFormatted n], by simp, ?_⟩
          simp [msgOf, finalMsgs, checkMessages, warningsOf, hd, hi']
    · have hc : check = false := by simpa using hc
      subst hc
      simp only [Bool.false_eq_true, if_false]
      by_cases hi : input = (fmt input).1
      · rw [if_neg (by simp [← hi])]
        have ho : outcome fmt faults d0 n = .formatted := by simp [outcome, hd, ← hi]
        refine h.update fmt faults write false d0 (q := .done) hf hp (by simp) rfl (fun _ _ => rfl) (.inr rfl) ?_ ?_ ?_ ?_ ?_
        · show s.disk n = finalDisk fmt faults write false d0 n
          simp [ht', finalDisk, written, ho]
        · simp [errOf, ho]
        · simp [unfOf]
        · simp [outOf, ho]
        · refine ⟨(fmt input).2.map (Msg.warning n), rfl, ?_⟩
          simp [msgOf, finalMsgs, writeMessages, warningsOf, hd, ho]
      · have hi' : (fmt input).1 ≠ input := fun e => hi e.symm
        by_cases hw : write = true
        · subst hw
          rw [if_pos (by simpa using hi)]
          split
          · rename_i hden
            have ho : outcome fmt faults d0 n = .denied := by simp [outcome, hd, hi', hden]
            refine h.update fmt faults true false d0 (q := .done) hf hp (by simp) rfl (fun _ _ => rfl) (.inr rfl) ?_ ?_ ?_ ?_ ?_
            · show s.disk n = finalDisk fmt faults true false d0 n
              simp [ht', finalDisk, written, ho]
            · simp [errOf, ho]
            · simp [unfOf]
            · simp [outOf, ho]
            · refine ⟨(fmt input).2.map (Msg.warning n) ++ [.writeError n], by simp, ?_⟩
              simp [msgOf, finalMsgs, writeMessages, warningsOf, hd, ho]
          · rename_i hden
            refine h.update fmt faults true false d0 (q := .writing 0 (fmt input).1) hf hp (by simp) rfl ?_
              (.inl (hn rfl rfl)) ?_ ?_ ?_ ?_ ?_
            · intro m hm
              exact Disk.set_other _ _ hm
            · refine ⟨rfl, rfl, input, hd, hi', by simpa using hden, by simp, by simp, ?_, by simp⟩
              show s.disk.set n [] n = _
              rw [Disk.set_same]
              simp
            · simp [errOf]
            · simp [unfOf]
            · simp [outOf]
            · refine ⟨(fmt input).2.map (Msg.warning n), rfl, ?_⟩
              simp [msgOf, warningsOf, hd]
        · have hw : write = false := by simpa using hw
          subst hw
          rw [if_neg (by simp)]
          have ho : outcome fmt faults d0 n ≠ .unreadable := by
            simp only [outcome, hd]
            repeat' split
            all_goals simp
          refine h.update fmt faults false false d0 (q := .done) hf hp (by simp) rfl (fun _ _ => rfl) (.inr rfl) ?_ ?_ ?_ ?_ ?_
          · show s.disk n = finalDisk fmt faults false false d0 n
            simp [ht', finalDisk]
          · simp only [errOf]
            revert ho
            cases outcome fmt faults d0 n <;> simp
          · simp [unfOf]
          · simp [outOf]
          · refine ⟨(fmt input).2.map (Msg.warning n), rfl, ?_⟩
            simp [msgOf, finalMsgs, warningsOf, hd]
  · rename_i n w rest hf hp
    have ht : TaskOk fmt faults write check d0 n (s.disk n) (.writing w rest) := by
      obtain ⟨a, b, e1, _⟩ := zip_split hf hp
      exact h.task (n, .writing w rest) (by rw [e1]; simp)
    obtain ⟨hw, hc, input, hd, hi, hden, hout, hlen, hdisk, hfail⟩ := ht
    subst hw hc
    split
    · have hlen' : w = (fmt input).1.length := by simpa using hlen
      have ho : outcome fmt faults d0 n = .differs := by
        simp only [outcome, hd, if_neg hi, hden, Bool.false_eq_true, if_false]
        split
        · rename_i k hk
          have := hfail k hk
          rw [if_neg (by omega)]
        · rfl
      refine h.update fmt faults true false d0 (q := .done) hf hp (by simp) rfl (fun _ _ => rfl) (.inr rfl) ?_ ?_ ?_ ?_ ?_
      · show s.disk n = finalDisk fmt faults true false d0 n
        simp [finalDisk, written, ho, formatOf, hd, hdisk, hlen']
      · simp [errOf, ho]
      · simp [unfOf]
      · simp [outOf, ho]
      · refine ⟨[], by simp, ?_⟩
        simp [msgOf, finalMsgs, writeMessages, ho]
    · rename_i c rest'
      split
      · rename_i hk
        have hlt : w < (fmt input).1.length := by simp at hlen; omega
        have ho : outcome fmt faults d0 n = .cut w := by
          simp [outcome, hd, hi, hden, hk, hlt]
        refine h.update fmt faults true false d0 (q := .done) hf hp (by simp) rfl (fun _ _ => rfl) (.inr rfl) ?_ ?_ ?_ ?_ ?_
        · show s.disk n = finalDisk fmt faults true false d0 n
          simp [finalDisk, written, ho, formatOf, hd, hdisk]
        · simp [errOf, ho]
        · simp [unfOf]
        · simp [outOf, ho]
        · refine ⟨[.writeError n], rfl, ?_⟩
          simp [msgOf, finalMsgs, writeMessages, ho]
      · rename_i hk
        have hlt : w < (fmt input).1.length := by simp at hlen; omega
        have htl : ((fmt input).1.take w).length = w := by simp; omega
        have htake : (fmt input).1.take (w + 1) = (fmt input).1.take w ++ [c] := by
          have key : ∀ t : List Char, t.length = w → (t ++ c :: rest').take (w + 1) = t ++ [c] := by
            rintro t rfl
            simp [List.take_append, List.take_of_length_le]
          have := key _ htl
          rwa [← hout] at this
        refine h.update fmt faults true false d0 (q := .writing (w + 1) rest') hf hp (by simp) rfl ?_
          (.inl (hn rfl rfl)) ?_ ?_ ?_ ?_ ?_
        · intro m hm
          exact Disk.set_other _ _ hm
        · refine ⟨rfl, rfl, input, hd, hi, hden, ?_, by simp at hlen; omega, ?_, ?_⟩
          · rw [htake, List.append_assoc]
            exact hout
          · show s.disk.set n _ n = _
            rw [Disk.set_same, hdisk, Option.getD_some, htake]
            have := overwriteAt_end ((fmt input).1.take w) c
            rw [htl] at this
            rw [this]
          · intro k hk'
            have := hfail k hk'
            have : k ≠ w := by rintro rfl; exact hk hk'
            omega
        · simp [errOf]
        · simp [unfOf]
        · simp [outOf]
        · exact ⟨[], by simp, by simp [msgOf]⟩
  · exact h

theorem ParInv.run {files : List Name} (hn : write = true → check = false → files.Nodup) (schedule : List Nat) :
    ∀ {s : Par}, ParInv fmt faults write check d0 files s →
      ParInv fmt faults write check d0 files (s.run fmt faults files write check schedule) := by
  induction schedule with
  | nil => intro s h; exact h
  | cons i is ih => intro s h; exact ih (h.step fmt faults write check d0 i hn)

/-- The phases at the end. -/
theorem zip_done {files : List Name} {s : Par} (hl : s.phases.length = files.length) (h : s.finished = true) :
    files.zip s.phases = files.map (·, .done) := by
  have hp : s.phases = List.replicate files.length .done := by
    rw [List.eq_replicate_iff]
    refine ⟨hl, fun b hb => ?_⟩
    simp only [Par.finished, List.all_eq_true, decide_eq_true_eq] at h
    exact h b hb
  rw [hp]
  clear hl h hp
  induction files with
  | nil => rfl
  | cons f fs ih => simp [List.replicate_succ, ih]

/-- The steps that a file may still need. -/
def stepsLeft (n : Name) : Phase → Nat
  | .start => (formatOf fmt d0 n).length + 3
  | .loaded _ => (formatOf fmt d0 n).length + 2
  | .writing _ rest => rest.length + 1
  | .done => 0

theorem step_phases {files : List Name} {s : Par} {i : Nat} {n : Name} {ph : Phase}
    (h : ParInv fmt faults write check d0 files s) (hf : files[i]? = some n) (hp : s.phases[i]? = some ph) :
    ∃ q, (s.step fmt faults files write check i).phases = s.phases.set i q ∧
      stepsLeft fmt d0 n q ≤ stepsLeft fmt d0 n ph - 1 := by
  have ht : TaskOk fmt faults write check d0 n (s.disk n) ph := by
    obtain ⟨a, b, e1, _⟩ := zip_split hf hp
    exact h.task (n, ph) (by rw [e1]; simp)
  rw [Par.step.eq_def, hf, hp]
  cases ph with
  | start =>
    simp only []
    split
    · exact ⟨.done, rfl, by simp [stepsLeft]⟩
    · exact ⟨_, rfl, by simp [stepsLeft]⟩
  | loaded input =>
    have hd : d0 n = some input := ht.1
    simp only []
    repeat' split
    all_goals first
      | exact ⟨.done, rfl, by simp [stepsLeft]⟩
      | exact ⟨_, rfl, by simp [stepsLeft, formatOf, hd]⟩
  | writing w rest =>
    simp only []
    split
    · exact ⟨.done, rfl, by simp [stepsLeft]⟩
    · split
      · exact ⟨.done, rfl, by simp [stepsLeft]⟩
      · exact ⟨_, rfl, by simp [stepsLeft]⟩
  | done =>
    refine ⟨.done, ?_, by simp [stepsLeft]⟩
    obtain ⟨a, b, e, hl, hset⟩ := split_at hp
    rw [hset]
    exact e

theorem step_out {files : List Name} {s : Par} {i : Nat} (h : s.phases.length = files.length)
    (hi : files.length ≤ i) : s.step fmt faults files write check i = s := by
  rw [Par.step.eq_def, List.getElem?_eq_none hi, List.getElem?_eq_none (by omega)]

theorem run_steps {files : List Name} (hn : write = true → check = false → files.Nodup) (schedule : List Nat) :
    ∀ {s : Par}, ParInv fmt faults write check d0 files s → ∀ (i : Nat) (n : Name) (ph : Phase),
      files[i]? = some n → s.phases[i]? = some ph →
      ∃ q, (s.run fmt faults files write check schedule).phases[i]? = some q ∧
        stepsLeft fmt d0 n q ≤ stepsLeft fmt d0 n ph - schedule.count i := by
  induction schedule with
  | nil => intro s h i n ph hf hp; exact ⟨ph, hp, by simp⟩
  | cons j js ih =>
    intro s h i n ph hf hp
    have hs := h.step fmt faults write check d0 j hn
    show ∃ q, ((s.step fmt faults files write check j).run fmt faults files write check js).phases[i]? = some q ∧ _
    by_cases hj : files.length ≤ j
    · have hij : j ≠ i := by
        rintro rfl
        rw [List.getElem?_eq_none hj] at hf
        cases hf
      rw [step_out fmt faults write check h.len hj, List.count_cons_of_ne hij]
      exact ih h i n ph hf hp
    · have hj : j < files.length := by omega
      have hj' : j < s.phases.length := by rw [h.len]; exact hj
      obtain ⟨q, hq, hle⟩ := step_phases fmt faults write check d0 h (List.getElem?_eq_getElem hj)
        (List.getElem?_eq_getElem hj')
      by_cases hij : j = i
      · subst hij
        rw [List.getElem?_eq_getElem hj] at hf
        rw [List.getElem?_eq_getElem hj'] at hp
        cases hf
        cases hp
        obtain ⟨q', hq', hle'⟩ := ih hs j files[j] q (List.getElem?_eq_getElem hj) (by
          rw [hq, List.getElem?_set_self hj'])
        refine ⟨q', hq', ?_⟩
        rw [List.count_cons_self]
        omega
      · rw [List.count_cons_of_ne hij]
        refine ih hs i n ph hf ?_
        rw [hq, List.getElem?_set_ne hij]
        exact hp

/-! ### Sorting -/

end

theorem strLe_total (a b : List Char) : strLe a b = true ∨ strLe b a = true := by
  induction a generalizing b with
  | nil => exact .inl rfl
  | cons x a ih =>
    cases b with
    | nil => exact .inr rfl
    | cons y b =>
      simp only [strLe, Bool.or_eq_true, Bool.and_eq_true, decide_eq_true_eq]
      rcases Nat.lt_trichotomy x.toNat y.toNat with h | h | h
      · exact .inl (.inl h)
      · rcases ih b with h' | h'
        · exact .inl (.inr ⟨h, h'⟩)
        · exact .inr (.inr ⟨h.symm, h'⟩)
      · exact .inr (.inl h)

theorem strLe_trans {a b c : List Char} (h1 : strLe a b = true) (h2 : strLe b c = true) : strLe a c = true := by
  induction a generalizing b c with
  | nil => rfl
  | cons x a ih =>
    cases b with
    | nil => cases h1
    | cons y b =>
      cases c with
      | nil => cases h2
      | cons z c =>
        simp only [strLe, Bool.or_eq_true, Bool.and_eq_true, decide_eq_true_eq] at h1 h2 ⊢
        rcases h1 with h1 | ⟨h1, h1'⟩ <;> rcases h2 with h2 | ⟨h2, h2'⟩
        · exact .inl (by omega)
        · exact .inl (by omega)
        · exact .inl (by omega)
        · exact .inr ⟨by omega, ih h1' h2'⟩

theorem strLe_antisymm {a b : List Char} (h1 : strLe a b = true) (h2 : strLe b a = true) : a = b := by
  induction a generalizing b with
  | nil =>
    cases b with
    | nil => rfl
    | cons y b => cases h2
  | cons x a ih =>
    cases b with
    | nil => cases h1
    | cons y b =>
      simp only [strLe, Bool.or_eq_true, Bool.and_eq_true, decide_eq_true_eq] at h1 h2
      rcases h1 with h1 | ⟨h1, h1'⟩ <;> rcases h2 with h2 | ⟨h2, h2'⟩
      · omega
      · omega
      · omega
      · have : x = y := Char.toNat_inj.mp h1
        rw [this, ih h1' h2']

theorem strsLe_total (a b : List (List Char)) : strsLe a b = true ∨ strsLe b a = true := by
  induction a generalizing b with
  | nil => exact .inl rfl
  | cons x a ih =>
    cases b with
    | nil => exact .inr rfl
    | cons y b =>
      simp only [strsLe]
      by_cases h : x = y
      · subst h
        simpa using ih b
      · rw [if_neg h, if_neg (fun e => h e.symm)]
        exact strLe_total x y

theorem strsLe_trans {a b c : List (List Char)} (h1 : strsLe a b = true) (h2 : strsLe b c = true) :
    strsLe a c = true := by
  induction a generalizing b c with
  | nil => rfl
  | cons x a ih =>
    cases b with
    | nil => cases h1
    | cons y b =>
      cases c with
      | nil => cases h2
      | cons z c =>
        simp only [strsLe] at h1 h2 ⊢
        by_cases hxy : x = y
        · subst hxy
          rw [if_pos rfl] at h1
          by_cases hxz : x = z
          · subst hxz
            rw [if_pos rfl] at h2 ⊢
            exact ih h1 h2
          · rw [if_neg hxz] at h2 ⊢
            exact h2
        · rw [if_neg hxy] at h1
          by_cases hyz : y = z
          · subst hyz
            rw [if_neg hxy]
            exact h1
          · rw [if_neg hyz] at h2
            by_cases hxz : x = z
            · subst hxz
              exact absurd (strLe_antisymm h1 h2) hxy
            · rw [if_neg hxz]
              exact strLe_trans h1 h2

theorem pathLe_total (a b : Name) : pathLe a b = true ∨ pathLe b a = true := strsLe_total _ _

theorem pathLe_trans {a b c : Name} (h1 : pathLe a b = true) (h2 : pathLe b c = true) : pathLe a c = true :=
  strsLe_trans h1 h2

theorem strsLe_antisymm {a b : List (List Char)} (h1 : strsLe a b = true) (h2 : strsLe b a = true) : a = b := by
  induction a generalizing b with
  | nil =>
    cases b with
    | nil => rfl
    | cons y b => cases h2
  | cons x a ih =>
    cases b with
    | nil => cases h1
    | cons y b =>
      simp only [strsLe] at h1 h2
      by_cases h : x = y
      · subst h
        rw [if_pos rfl] at h1 h2
        rw [ih h1 h2]
      · rw [if_neg h] at h1
        rw [if_neg (fun e => h e.symm)] at h2
        exact absurd (strLe_antisymm h1 h2) h

theorem splitOn_inj (c : Char) {a b : List Char} (h : splitOn c a = splitOn c b) : a = b := by
  have key : ∀ s, joinWith [c] (splitOn c s) = s := by
    intro s
    exact join_splitOn c s
  rw [← key a, h, key]

theorem pathLe_antisymm {a b : Name} (h1 : pathLe a b = true) (h2 : pathLe b a = true) : a = b :=
  splitOn_inj '/' (strsLe_antisymm h1 h2)

theorem insertSorted_perm (n : Name) (l : List Name) : (insertSorted n l).Perm (n :: l) := by
  induction l with
  | nil => exact List.Perm.refl _
  | cons m ms ih =>
    rw [insertSorted]
    split
    · exact List.Perm.refl _
    · exact (List.Perm.cons m ih).trans (List.Perm.swap n m ms)

theorem sortPaths_perm (l : List Name) : (sortPaths l).Perm l := by
  induction l with
  | nil => exact List.Perm.refl _
  | cons n l ih => exact (insertSorted_perm n _).trans (List.Perm.cons n ih)

theorem insertSorted_sorted (n : Name) (l : List Name) (h : l.Pairwise fun a b => pathLe a b = true) :
    (insertSorted n l).Pairwise fun a b => pathLe a b = true := by
  induction l with
  | nil => simp [insertSorted]
  | cons m ms ih =>
    rw [insertSorted]
    rw [List.pairwise_cons] at h
    split
    · rename_i hle
      refine List.pairwise_cons.mpr ⟨fun x hx => ?_, List.pairwise_cons.mpr h⟩
      rcases List.mem_cons.mp hx with rfl | hx
      · exact hle
      · exact pathLe_trans hle (h.1 x hx)
    · rename_i hle
      refine List.pairwise_cons.mpr ⟨fun x hx => ?_, ih h.2⟩
      rcases List.mem_cons.mp ((insertSorted_perm n ms).mem_iff.mp hx) with rfl | hx
      · rcases pathLe_total m x with h' | h'
        · exact h'
        · exact absurd h' hle
      · exact h.1 x hx

theorem sortPaths_sorted (l : List Name) : (sortPaths l).Pairwise fun a b => pathLe a b = true := by
  induction l with
  | nil => exact List.Pairwise.nil
  | cons n l ih => exact insertSorted_sorted n _ ih

/-! ### File names -/

/-- The last piece after a character. -/
theorem takeWhile_last (c : Char) (s : List Char) :
    ∃ a, s = a ++ (s.reverse.takeWhile (· ≠ c)).reverse ∧ (a = [] ∨ a.getLast? = some c) ∧
      c ∉ (s.reverse.takeWhile (· ≠ c)).reverse ∧ (s.reverse.dropWhile (· ≠ c)).reverse = a := by
  refine ⟨(s.reverse.dropWhile (· ≠ c)).reverse, ?_, ?_, ?_, rfl⟩
  · rw [← List.reverse_append, List.takeWhile_append_dropWhile, List.reverse_reverse]
  · cases h : s.reverse.dropWhile (· ≠ c) with
    | nil => exact .inl rfl
    | cons x xs =>
      right
      have hx : ¬ (decide (x ≠ c) = true) := by
        have := List.head?_dropWhile_not (fun y => decide (y ≠ c)) s.reverse
        rw [h] at this
        simpa using this
      have hx : x = c := by simpa using hx
      rw [List.reverse_cons, List.getLast?_append]
      simp [hx]
  · rw [List.mem_reverse]
    intro h
    have : ∀ l : List Char, c ∉ l.takeWhile (· ≠ c) := by
      intro l
      induction l with
      | nil => simp
      | cons y l ih =>
        rw [List.takeWhile_cons]
        split
        · rename_i hy
          simp at hy
          simp only [List.mem_cons, not_or]
          exact ⟨fun e => hy e.symm, ih⟩
        · simp
    exact this _ h

/-- The pieces are determined. -/
theorem last_unique {c : Char} {a b s t : List Char} (ha : a = [] ∨ a.getLast? = some c)
    (hb : b = [] ∨ b.getLast? = some c) (hs : c ∉ s) (ht : c ∉ t) (e : a ++ s = b ++ t) : a = b ∧ s = t := by
  rcases List.append_eq_append_iff.mp e with ⟨x, rfl, rfl⟩ | ⟨x, rfl, rfl⟩
  · rcases List.eq_nil_or_concat x with rfl | ⟨y, z, rfl⟩
    · simp
    · rcases hb with hb | hb
      · simp at hb
      · rw [List.concat_eq_append, ← List.append_assoc, List.getLast?_append] at hb
        simp at hb
        subst hb
        exact absurd (by simp) hs
  · rcases List.eq_nil_or_concat x with rfl | ⟨y, z, rfl⟩
    · simp
    · rcases ha with hb | hb
      · simp at hb
      · rw [List.concat_eq_append, ← List.append_assoc, List.getLast?_append] at hb
        simp at hb
        subst hb
        exact absurd (by simp) ht

theorem fileName_eq {dir file : List Char} (hd : dir = [] ∨ dir.getLast? = some '/') (hf : '/' ∉ file) :
    fileName (dir ++ file) = file := by
  obtain ⟨a, e, h1, h2, _⟩ := takeWhile_last '/' (dir ++ file)
  exact (last_unique hd h1 hf h2 e).2.symm

theorem extension_iff (n : Name) (ext : List Char) :
    extension n = some ext ↔ ∃ stem, fileName n = stem ++ '.' :: ext ∧ stem ≠ [] ∧ '.' ∉ ext := by
  rw [extension]
  generalize fileName n = f
  obtain ⟨a, e, h1, h2, h3⟩ := takeWhile_last '.' f
  have h3 : f.reverse.dropWhile (· ≠ '.') = a.reverse := by rw [← h3, List.reverse_reverse]
  show (match f.reverse.dropWhile (· ≠ '.') with
    | [] => none
    | [_] => none
    | _ => some (f.reverse.takeWhile (· ≠ '.')).reverse) = some ext ↔ _
  rw [h3]
  revert e h2
  generalize (f.reverse.takeWhile (· ≠ '.')).reverse = t
  intro e h2
  subst e
  constructor
  · intro h
    split at h
    · cases h
    · cases h
    · rename_i hne1 hne2
      cases h
      rcases h1 with rfl | h1
      · exact absurd rfl hne1
      · rcases List.eq_nil_or_concat a with rfl | ⟨b, z, rfl⟩
        · cases h1
        · rw [List.concat_eq_append] at h1 hne2 ⊢
          rw [List.getLast?_append] at h1
          simp at h1
          subst h1
          refine ⟨b, by simp, ?_, h2⟩
          rintro rfl
          exact hne2 '.' rfl
  · rintro ⟨stem, e, hs, he⟩
    have e' : a ++ t = (stem ++ ['.']) ++ ext := by rw [e]; simp
    obtain ⟨rfl, rfl⟩ := last_unique h1 (.inr (by rw [List.getLast?_append]; simp)) h2 he e'
    rcases List.eq_nil_or_concat stem with rfl | ⟨b, z, rfl⟩
    · exact absurd rfl hs
    · simp

theorem isMarkdown_iff (n : Name) : isMarkdownFile n = true ↔ IsMarkdown n := by
  have key : isMarkdownFile n = true ↔ ∃ ext, extension n = some ext ∧
      (ext.map Char.toLower = "md".toList ∨ ext.map Char.toLower = "markdown".toList) := by
    rw [isMarkdownFile]
    cases extension n with
    | none => simp
    | some ext =>
      simp only [eqIgnoreAsciiCase, Bool.or_eq_true, decide_eq_true_eq, Option.some.injEq, exists_eq_left']
      have e1 : "md".toList.map Char.toLower = "md".toList := by decide
      have e2 : "markdown".toList.map Char.toLower = "markdown".toList := by decide
      rw [e1, e2]
  have hno : ∀ ext : List Char, (ext.map Char.toLower = "md".toList ∨ ext.map Char.toLower = "markdown".toList) →
      '.' ∉ ext ∧ '/' ∉ ext := by
    intro ext h
    have hm : ∀ c ∈ ext, c.toLower ∈ "md".toList ∨ c.toLower ∈ "markdown".toList := by
      intro c hc
      have : c.toLower ∈ ext.map Char.toLower := List.mem_map_of_mem hc
      rcases h with h | h
      · rw [h] at this; exact .inl this
      · rw [h] at this; exact .inr this
    constructor
    · intro hc
      have := hm '.' hc
      revert this
      decide
    · intro hc
      have := hm '/' hc
      revert this
      decide
  rw [key]
  constructor
  · rintro ⟨ext, h1, h2⟩
    obtain ⟨stem, e, hs, he⟩ := (extension_iff n ext).mp h1
    obtain ⟨dir, e2, h3, h4, _⟩ := takeWhile_last '/' n
    have e3 : n = dir ++ fileName n := e2
    have h4 : '/' ∉ fileName n := h4
    rw [e] at e3 h4
    refine ⟨dir, stem, ext, by rw [List.append_assoc]; exact e3, h3, hs, ?_, h2⟩
    intro hc
    exact h4 (by simp [hc])
  · rintro ⟨dir, stem, ext, rfl, hd, hs, hsl, h⟩
    obtain ⟨h1, h2⟩ := hno ext h
    refine ⟨ext, (extension_iff _ _).mpr ⟨stem, ?_, hs, h1⟩, h⟩
    rw [List.append_assoc, fileName_eq hd]
    simp [hsl, h2]

end Hongdown
