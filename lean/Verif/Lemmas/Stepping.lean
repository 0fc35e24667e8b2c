import Verif.Model.Stepping
import Verif.Spec.Stepping
import Verif.Lemmas.SimReports
import Verif.Lemmas.SimRun
/-! # Calls of `step` and `steps` -/
namespace Verif
open Verif.Spec

variable {s s' : Sim} {C : Cfg} {same : Ev → Ev → Prop} {w : Mach} {args : Option EnvArgs} {t : ℚ} {last last' : Option Ev} {r : StepEnd}

/-! ## All states are reachable -/

theorem reachable_runsOn {r : Except PyErr Unit} (h : Reachable C w args t s) (hr : RunsOn C s s' r) : Reachable C w args t s' := by
  induction hr with
  | stopped hs => exact h.stopped hs
  | raised hs => exact h.raised hs
  | more hs _ ih => exact ih (h.step hs)

theorem reachable_runCall {r : Except PyErr Unit} {q : ℚ} (h : Reachable C w args t s) (hr : RunCall C s q s' r) : Reachable C w args t s' := by
  cases hr with
  | refused h1 => exact h.stop h1
  | failed h1 h2 => exact reachable_runsOn (h.stop h1) h2
  | ended h1 h2 h3 => exact (reachable_runsOn (h.stop h1) h2).compile h3

theorem reachable_stepCall (h : Reachable C w args t s) (hr : StepCall C same s last s' last' r) : Reachable C w args t s' := by
  induction hr with
  | empty => exact h
  | stopped hs => exact h.stopped hs
  | raised hs => exact h.raised hs
  | found hs => exact h.step hs
  | failed hs _ hc => exact (h.step hs).compile hc
  | again hs _ hc _ ih => exact ih ((h.step hs).compile hc)

theorem reachable_stepsLoop {n : ℕ} (h : Reachable C w args t s) (hr : StepsLoop C same n s last s' last' r) : Reachable C w args t s' := by
  induction hr with
  | zero => exact h
  | more h1 _ ih => exact ih (reachable_stepCall h h1)
  | left h1 => exact reachable_stepCall h h1

theorem reachable_session (h : Session C same w args t s last) : Reachable C w args t s := by
  induction h with
  | init => exact .init
  | run _ hr ih => exact reachable_runCall ih hr
  | step _ hr ih => exact reachable_stepCall ih hr
  | steps _ hr ih =>
    cases hr with
    | refused => exact ih
    | steps _ hr => exact reachable_stepsLoop ih hr

/-! ## Reports -/

theorem current_append (s : Sim) (l : List (ℚ × Ev)) (x : ℚ × Ev) (h : s.trace = l ++ [x]) : s.current = some x.2 := by simp [Sim.current, h]

theorem current_trace (h : s'.trace = s.trace) : s'.current = s.current := by simp [Sim.current, h]

theorem compile_trace {r : Except PyErr Unit} (h : compileAtEnd C s = (s', r)) : s'.trace = s.trace ∧ s'.now = s.now := by
  unfold compileAtEnd at h
  split at h
  · split at h <;> (cases h; exact ⟨rfl, rfl⟩)
  · cases h; exact ⟨rfl, rfl⟩

theorem compile_none (h : s.queue ≠ []) : compileAtEnd C s = (s, .ok ()) := by
  unfold compileAtEnd
  rw [if_neg (by simpa using h)]

/-- One step in a reachable state. -/
theorem reports_step (h : Reachable C w args t s) :
    (∀ s', s.step C = .ok s' → OneMore s s') ∧ (∀ s', s.step C = .stopped s' → OneMore s s') ∧ (∀ s' x, s.step C = .raised s' x → OneMore s s') := by
  have := apart_step (C := C) (fine_reachable h) (apart_reachable h)
  exact ⟨fun s' hs => (this.1 s' hs).2, fun s' hs => (this.2.1 s' hs).2, fun s' x hs => (this.2.2 s' x hs).2⟩

/-- The time of a report is that of the clock. -/
theorem report_time (h : Reachable C w args t s') {e : Ev} (hx : (s'.now, e) ∈ s'.trace) : s'.now = e.time := ((fine_reachable h).1.trace _ hx).1

/-- Events that are reported have an action. -/
theorem reports_known (h : Reachable C w args t s) : ∀ x ∈ s.trace, x.2.act ≠ .unknown := by
  have hm : ∀ {s s' : Sim}, OneMore s s' → (∀ x ∈ s.trace, x.2.act ≠ .unknown) → ∀ x ∈ s'.trace, x.2.act ≠ .unknown := by
    rintro s s' (h | ⟨e, he, h⟩) ih x hx <;> rw [h] at hx
    · exact ih x hx
    · rcases List.mem_append.1 hx with hx | hx
      · exact ih x hx
      · rw [List.mem_singleton.1 hx]; exact he
  induction h with
  | init => rw [(apart_init w args t).2]; simp
  | stop _ hs ih =>
    unfold Sim.setStop at hs
    split at hs <;> (cases hs; exact ih)
  | step h hs ih => exact hm ((reports_step h).1 _ hs) ih
  | stopped h hs ih => exact hm ((reports_step h).2.1 _ hs) ih
  | raised h hs ih => exact hm ((reports_step h).2.2 _ _ hs) ih
  | compile _ hs ih => rw [(compile_trace hs).1]; exact ih

/-- All of these are the same as the last event. -/
def Echo (same : Ev → Ev → Prop) (last : Option Ev) (l : List (ℚ × Ev)) : Prop := ∀ y ∈ l, ∃ e, last = some e ∧ same y.2 e

/-- What is reported in a call of `step`. -/
def Told (same : Ev → Ev → Prop) (s : Sim) (last : Option Ev) (s' : Sim) (last' : Option Ev) : StepEnd → Prop
  | .returned => ∃ l x, s'.trace = s.trace ++ l ++ [x] ∧ Echo same last l ∧ (∀ e, last = some e → ¬ same x.2 e) ∧ last' = some x.2 ∧ s'.now = x.2.time
  | .exhausted => ∃ l, s'.trace = s.trace ++ l ∧ Echo same last l ∧ s'.queue = []
  | .stopped => ∃ l, s'.trace = s.trace ++ l ∧ Echo same last l
  | .raised _ => ∃ l l', s'.trace = s.trace ++ l ++ l' ∧ Echo same last l ∧ l'.length ≤ 1

theorem told_step (h : Reachable C w args t s) (hc : ∀ e, s.current = some e → ∃ l, last = some l ∧ same e l) (hr : StepCall C same s last s' last' r) :
    Told same s last s' last' r := by
  induction hr with
  | @empty s last hs =>
    refine ⟨[], by simp, by simp [Echo], ?_⟩
    rcases step_cases hs with ⟨_, h⟩ | ⟨en, q, _, ⟨_, h⟩ | ⟨_, h | ⟨x, h⟩⟩⟩
    · exact h
    all_goals cases h
  | @stopped s s' last hs =>
    rcases step_cases hs with ⟨h, _⟩ | ⟨en, q, _, ⟨_, h⟩ | ⟨_, h | ⟨x, h⟩⟩⟩ <;> cases h
    exact ⟨[], by simp [Sim.taken], by simp [Echo]⟩
  | @raised s s' last x hs =>
    rcases (reports_step h).2.2 _ _ hs with h1 | ⟨e, _, h1⟩
    · exact ⟨[], [], by simp [h1], by simp [Echo], by simp⟩
    · exact ⟨[], [(s'.now, e)], by simp [h1], by simp [Echo], by simp⟩
  | @found s s' last hs hn =>
    obtain ⟨e, he, _, hne⟩ := hn
    rcases (reports_step h).1 _ hs with h1 | ⟨e', _, h1⟩
    · rw [current_trace h1] at he
      obtain ⟨l, hl, hsm⟩ := hc e he
      exact absurd hsm (hne l hl)
    · rw [current_append _ _ _ h1] at he ⊢
      cases he
      exact ⟨[], (s'.now, e'), by simp [h1], by simp [Echo], hne, rfl, report_time (h.step hs) (by rw [h1]; simp)⟩
  | @failed s s1 s' last x hs hn hcc =>
    rw [Told, (compile_trace hcc).1]
    rcases (reports_step h).1 _ hs with h1 | ⟨e', _, h1⟩
    · exact ⟨[], [], by simp [h1], by simp [Echo], by simp⟩
    · exact ⟨[], [(s1.now, e')], by simp [h1], by simp [Echo], by simp⟩
  | @again s s1 s2 s' last last' r hs hn hcc _ ih =>
    have ht := (compile_trace hcc).1
    -- what has been reported in the first step
    obtain ⟨l0, h0, he0, hcur⟩ : ∃ l, s2.trace = s.trace ++ l ∧ Echo same last l ∧ ∀ e, s2.current = some e → ∃ l, last = some l ∧ same e l := by
      rw [current_trace ht, ht]
      rcases (reports_step h).1 _ hs with h1 | ⟨e', hu, h1⟩
      · exact ⟨[], by simp [h1], by simp [Echo], by rw [current_trace h1]; exact hc⟩
      · have hc1 := current_append _ _ _ h1
        have hsm : ∃ l, last = some l ∧ same e' l := by
          by_contra hno
          exact hn ⟨e', hc1, hu, fun l hl hs => hno ⟨l, hl, hs⟩⟩
        refine ⟨[(s1.now, e')], h1, ?_, fun e he => ?_⟩
        · intro y hy; rw [List.mem_singleton.1 hy]; exact hsm
        · rw [hc1] at he; cases he; exact hsm
    have := ih ((h.step hs).compile hcc) hcur
    have hap : ∀ {l}, Echo same last l → Echo same last (l0 ++ l) := fun hl y hy => (List.mem_append.1 hy).elim (he0 y) (hl y)
    cases r with
    | returned =>
      obtain ⟨l, x, a, b, c⟩ := this
      exact ⟨l0 ++ l, x, by rw [a, h0]; simp, hap b, c⟩
    | exhausted =>
      obtain ⟨l, a, b, c⟩ := this
      exact ⟨l0 ++ l, by rw [a, h0]; simp, hap b, c⟩
    | stopped =>
      obtain ⟨l, a, b⟩ := this
      exact ⟨l0 ++ l, by rw [a, h0]; simp, hap b⟩
    | raised x =>
      obtain ⟨l, l', a, b, c⟩ := this
      exact ⟨l0 ++ l, l', by rw [a, h0]; simp, hap b, c⟩

/-- After a call that returns, the last event is the current one. -/
theorem returned_current (hr : StepCall C same s last s' last' .returned) : last' = s'.current ∧ News same s' last := by
  generalize he : StepEnd.returned = r at hr
  induction hr with
  | found hs hn => exact ⟨rfl, hn⟩
  | again _ _ _ _ ih => exact ih he
  | _ => cases he

/-! ## Calls that return -/

/-- Steps after which `step` does not return. -/
inductive Idle (C : Cfg) (same : Ev → Ev → Prop) (last : Option Ev) : Sim → Sim → Prop
  | refl {s : Sim} : Idle C same last s s
  | snoc {s s1 s2 : Sim} : Idle C same last s s1 → s1.step C = .ok s2 → ¬ News same s2 last → Idle C same last s s2

theorem step_queue (h : s.step C = .ok s') : s.queue ≠ [] := by
  intro hq
  rcases step_cases h with ⟨h, _⟩ | ⟨en, q, hq', _⟩
  · cases h
  · rw [hq] at hq'; cases hq'

theorem returned_queue (hr : StepCall C same s last s' last' .returned) : s.queue ≠ [] := by
  cases hr with
  | found hs => exact step_queue hs
  | again hs => exact step_queue hs

theorem idle_returned {s1 : Sim} (h : Idle C same last s s1) (hr : StepCall C same s1 last s' last' .returned) : StepCall C same s last s' last' .returned := by
  induction h with
  | refl => exact hr
  | snoc _ hs hn ih => exact ih (.again hs hn (compile_none (returned_queue hr)) hr)

end Verif
