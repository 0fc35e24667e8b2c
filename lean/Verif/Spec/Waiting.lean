import Verif.Model.Simulation
/-! # Specification: announced events (property C60) -/
namespace Verif.Spec
open Verif

/-- Process `p` has announced the event `e` and waits until it is time to report it: `__localprocess__` or `__envprocess__`
(simulation.py:185-250). -/
def Announced (s : Sim) (p : ℕ) (e : Verif.Ev) : Prop := (∃ name k, s.points p = some (.localWait name e k)) ∨ s.points p = some (.envProc e)

/-- The next step interrupts process `p`. -/
def Interrupts (s : Sim) (p : ℕ) : Prop := ∃ en q, s.queue = en :: q ∧ ∃ l, (s.events en.ev).callbacks = some l ∧ .interrupt p ∈ l

/-- The next step of the simulation leads to `s'`, whether it is carried out or stops `run` or raises. -/
def Stepped.leads (r : Stepped) (s' : Sim) : Prop := r = .ok s' ∨ r = .stopped s' ∨ ∃ x, r = .raised s' x

/-- The simulation goes on from one state to another: by steps, by setting the end of a call of `run`, or by compiling rules at the end. -/
inductive GoesOn (C : Cfg) : Sim → Sim → Prop
  | refl (s : Sim) : GoesOn C s s
  | step {s s1 s2 : Sim} : GoesOn C s s1 → Stepped.leads (s1.step C) s2 → GoesOn C s s2
  | stop {s s1 : Sim} (t : ℚ) : GoesOn C s s1 → GoesOn C s (s1.setStop t).1
  | compile {s s1 : Sim} : GoesOn C s s1 → GoesOn C s (compileAtEnd C s1).1

/-- Somewhere between `s` and `s'` process `p` is interrupted. -/
def InterruptedBetween (C : Cfg) (s s' : Sim) (p : ℕ) : Prop := ∃ s1 s2, GoesOn C s s1 ∧ Interrupts s1 p ∧ Stepped.leads (s1.step C) s2 ∧ GoesOn C s2 s'

end Verif.Spec
