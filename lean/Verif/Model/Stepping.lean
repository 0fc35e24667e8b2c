import Verif.Model.Simulation
/-!
# Stepping through a simulation

Models `Simulation.step`, `steps` and `show_time` (simulation.py:265-296). Events are compared as tuples of time, buffer and text of the
action; which actions have the same text is left open: `same e e'` is the equality of events.
-/
namespace Verif

/-- `current_event` (simulation.py:88, 215, 224). -/
def Sim.current (s : Sim) : Option Ev := s.trace.getLast?.map (·.2)

/-- The test of simulation.py:283, with the value of `__last_event`. -/
def News (same : Ev → Ev → Prop) (s : Sim) (last : Option Ev) : Prop :=
  ∃ e, s.current = some e ∧ e.act ≠ .unknown ∧ ∀ l, last = some l → ¬ same e l

/-- How a call of `step` ends: it returns, or an exception is raised, which is EmptySchedule if nothing is left to happen and
StopSimulation if an earlier call of `run` was left by an exception and its time has come. -/
inductive StepEnd where
  | returned
  | raised (x : PyErr)
  | exhausted
  | stopped

/-- `Simulation.step` (simulation.py:277-288): a call that comes to an end, with the values of `__last_event` before and after. -/
inductive StepCall (C : Cfg) (same : Ev → Ev → Prop) : Sim → Option Ev → Sim → Option Ev → StepEnd → Prop
  | empty {s : Sim} {last : Option Ev} : s.step C = .empty → StepCall C same s last s last .exhausted
  | stopped {s s' : Sim} {last : Option Ev} : s.step C = .stopped s' → StepCall C same s last s' last .stopped
  | raised {s s' : Sim} {last : Option Ev} {x : PyErr} : s.step C = .raised s' x → StepCall C same s last s' last (.raised x)
  | found {s s' : Sim} {last : Option Ev} : s.step C = .ok s' → News same s' last → StepCall C same s last s' s'.current .returned
  | failed {s s1 s' : Sim} {last : Option Ev} {x : PyErr} : s.step C = .ok s1 → ¬ News same s1 last → compileAtEnd C s1 = (s', .error x) →
      StepCall C same s last s' last (.raised x)
  | again {s s1 s2 s' : Sim} {last last' : Option Ev} {r : StepEnd} : s.step C = .ok s1 → ¬ News same s1 last →
      compileAtEnd C s1 = (s2, .ok ()) → StepCall C same s2 last s' last' r → StepCall C same s last s' last' r

/-- The loop of `steps` (simulation.py:295-296). -/
inductive StepsLoop (C : Cfg) (same : Ev → Ev → Prop) : ℕ → Sim → Option Ev → Sim → Option Ev → StepEnd → Prop
  | zero {s : Sim} {last : Option Ev} : StepsLoop C same 0 s last s last .returned
  | more {n : ℕ} {s s1 s' : Sim} {last last1 last' : Option Ev} {r : StepEnd} : StepCall C same s last s1 last1 .returned →
      StepsLoop C same n s1 last1 s' last' r → StepsLoop C same (n + 1) s last s' last' r
  | left {n : ℕ} {s s' : Sim} {last last' : Option Ev} {r : StepEnd} : StepCall C same s last s' last' r → r ≠ .returned →
      StepsLoop C same (n + 1) s last s' last' r

/-- `Simulation.steps(count)` (simulation.py:289-296), for a number: its fraction is cut off, and AssertionError is raised unless it is
positive. -/
inductive StepsCall (C : Cfg) (same : Ev → Ev → Prop) (count : ℚ) : Sim → Option Ev → Sim → Option Ev → StepEnd → Prop
  | refused {s : Sim} {last : Option Ev} : count.num.tdiv count.den ≤ 0 → StepsCall C same count s last s last (.raised .assertion)
  | steps {s s' : Sim} {last last' : Option Ev} {r : StepEnd} : 0 < count.num.tdiv count.den →
      StepsLoop C same (count.num.tdiv count.den).toNat s last s' last' r → StepsCall C same count s last s' last' r

/-- `Simulation.show_time` (simulation.py:265-274). There is always a simulation. -/
def Sim.showTime (s : Sim) : ℚ := s.now

/-- A program that makes a simulation and calls `run`, `step` and `steps` in any order, also after exceptions: the states between calls,
with the values of `__last_event`. -/
inductive Session (C : Cfg) (same : Ev → Ev → Prop) (w : Mach) (args : Option EnvArgs) (t : ℚ) : Sim → Option Ev → Prop
  | init : Session C same w args t (Sim.init w args t) Option.none
  | run {s s' : Sim} {last : Option Ev} {q : ℚ} {r : Except PyErr Unit} : Session C same w args t s last → RunCall C s q s' r →
      Session C same w args t s' last
  | step {s s' : Sim} {last last' : Option Ev} {r : StepEnd} : Session C same w args t s last → StepCall C same s last s' last' r →
      Session C same w args t s' last'
  | steps {s s' : Sim} {last last' : Option Ev} {count : ℚ} {r : StepEnd} : Session C same w args t s last →
      StepsCall C same count s last s' last' r → Session C same w args t s' last'

end Verif
