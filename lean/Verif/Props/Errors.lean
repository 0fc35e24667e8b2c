import Verif.Props.Simulation
import Verif.Lemmas.Errors
/-! # Property C62: exceptions are never lost -/
namespace Verif.Props
open Verif Verif.Spec

variable {C : Cfg} {w : Mach} {args : Option EnvArgs} {t : ℚ} {s s1 s2 : Sim} {p : ℕ} {x : PyErr}

/-- C62: when a process has ended with an exception (other than that of an interruption), the clock stands still and something is left to
happen until this exception has been raised. -/
theorem C62 (h : Reachable C w args t s) (hf : FailsIn C s s1 p x) (hx : x ≠ .interrupt) (hg : GoesOnWithout C x s1 s2) : s2.now = s1.now ∧ s2.step C ≠ .empty := by
  have h1 : Reachable C w args t s1 := by
    rcases hf.1 with hs | hs | ⟨_, hs⟩
    · exact h.step hs
    · exact h.stopped hs
    · exact h.raised hs
  obtain ⟨h2, h3⟩ := failing_without h1 hx (failing_fails h hf) hg
  have hr := reachable_without h1 hg
  have ha := alert_reachable hr
  exact ⟨h3, (failing_step (s' := s2) (fine_reachable hr) (awake_reachable hr) ha.1 ha.2 hx h2 rfl).2.2⟩

/-- C62 for the call of `run` that is going on: it ends at the time at which the process ended. -/
theorem C62_run {r : Except PyErr Unit} (h : Reachable C w args t s) (hf : FailsIn C s s1 p x) (hx : x ≠ .interrupt) (hs : RunsOn C s1 s2 r) : s2.now = s1.now := by
  have h1 : Reachable C w args t s1 := by
    rcases hf.1 with hs | hs | ⟨_, hs⟩
    · exact h.step hs
    · exact h.stopped hs
    · exact h.raised hs
  have h2 := failing_fails h hf
  clear hf h
  induction hs with
  | stopped hs =>
    have ha := alert_reachable h1
    exact ((failing_step (fine_reachable h1) (awake_reachable h1) ha.1 ha.2 hx h2 hs).1 (.inr rfl)).2
  | raised hs =>
    have ha := alert_reachable h1
    exact ((failing_step (fine_reachable h1) (awake_reachable h1) ha.1 ha.2 hx h2 hs).2.1 _ rfl).2
  | more hs _ ih =>
    have ha := alert_reachable h1
    obtain ⟨h3, h4⟩ := (failing_step (fine_reachable h1) (awake_reachable h1) ha.1 ha.2 hx h2 hs).1 (.inl rfl)
    exact (ih (h1.step hs) h3).trans h4

/-- C62 for calls of `run` that return: no process has ended with an exception in them, except perhaps at the time at which they were stopped. -/
theorem C62_returned (h : Reachable C w args t s) (hf : FailsIn C s s1 p x) (hx : x ≠ .interrupt) (hs : RunsOn C s1 s2 (.ok ())) : ¬ s1.now < s2.now := by
  rw [C62_run h hf hx hs]; exact lt_irrefl _

/-! ## Examples -/

/-- A model that presses a key that is not on the keyboard. -/
def exWrong : Mach :=
  { exMach exManualReg [("manual", exBuf .motor)] with
    rules := [("press", exPressRule "q1")], ordered := ["press"] }

theorem stepsOf_without {n : ℕ} (hg : GoesOnWithout C x s s1) (he : stepsOf C n s1 = .ok s2) : GoesOnWithout C x s s2 := by
  induction n generalizing s1 with
  | zero => cases he; exact hg
  | succ n ih =>
    rw [stepsOf_succ] at he
    cases hs : s1.step C with
    | ok s3 => rw [hs] at he; exact ih (hg.step hs) he
    | stopped s3 => rw [hs] at he; cases he
    | raised s3 y => rw [hs] at he; cases he
    | empty => rw [hs] at he; cases he

/-- A state after some steps in which nothing was raised. -/
def Stepped.state? : Stepped → Option Sim
  | .ok s => some s
  | _ => Option.none

theorem state?_some {r : Stepped} (h : Stepped.state? r = some s) : r = .ok s := by
  cases r <;> cases h; rfl

/-- What `ex_wrong` says, in a form that can be evaluated. -/
noncomputable def exWrongly : Option (Bool × Bool × Bool × Bool × Bool) := do
  let s ← Stepped.state? (stepsOf exC 9 (Sim.init exWrong Option.none 0))
  let s1 ← Stepped.state? (s.step exC)
  let s2 ← Stepped.state? (stepsOf exC 4 s1)
  pure ((s.points 15).isSome, (s1.points 15).isNone, (match (s1.events 15).value with | some (.error .actr) => true | _ => false),
    (match s2.step exC with | .raised s3 .actr => decide (s3.now = s1.now) | _ => false), true)

/-- The process in which the request is handled ends with an exception, and five steps later it is raised. -/
theorem ex_wrong : ∃ s s1 s2 s3, Reachable exC exWrong Option.none 0 s ∧ FailsIn exC s s1 15 .actr ∧ GoesOnWithout exC .actr s1 s2 ∧ s2.step exC = .raised s3 .actr ∧ s3.now = s1.now := by
  have h : exWrongly = some (true, true, true, true, true) := by decide +kernel
  unfold exWrongly at h
  cases h1 : Stepped.state? (stepsOf exC 9 (Sim.init exWrong Option.none 0)) with
  | none => rw [h1] at h; cases h
  | some s =>
    rw [h1] at h
    replace h : (Stepped.state? (s.step exC)).bind _ = _ := h
    cases h2 : Stepped.state? (s.step exC) with
    | none => rw [h2] at h; cases h
    | some s1 =>
      rw [h2] at h
      replace h : (Stepped.state? (stepsOf exC 4 s1)).bind _ = _ := h
      cases h3 : Stepped.state? (stepsOf exC 4 s1) with
      | none => rw [h3] at h; cases h
      | some s2 =>
        rw [h3] at h
        replace h : some (_, _, _, _, true) = _ := h
        simp only [Option.some.injEq, Prod.mk.injEq, and_true] at h
        obtain ⟨ha, hb, hc, hd⟩ := h
        refine ⟨s, s1, s2, ?_⟩
        split at hc
        · rename_i hv
          split at hd
          · rename_i s3 hs3
            refine ⟨s3, stepsOf_ok .init (state?_some h1), ⟨.inl (state?_some h2), ?_, by simpa using hb, hv⟩, stepsOf_without (.refl _) (state?_some h3), hs3, of_decide_eq_true hd⟩
            intro hn; rw [hn] at ha; cases ha
          · cases hd
        · cases hc

/-- The example satisfies the hypotheses of C62 and C62_run. -/
example : ∃ s s1 s2, Reachable exC exWrong Option.none 0 s ∧ FailsIn exC s s1 15 .actr ∧ GoesOnWithout exC .actr s1 s2 ∧ s2.now = s1.now ∧ s2.step exC ≠ .empty := by
  obtain ⟨s, s1, s2, _, h1, h2, h3, _⟩ := ex_wrong
  exact ⟨s, s1, s2, h1, h2, h3, C62 h1 h2 (by simp) h3⟩

end Verif.Props
