import Verif.Spec.Waiting
/-! # Specification: exceptions (property C62) -/
namespace Verif.Spec
open Verif

/-- In the next step of the simulation, which leads from `s` to `s'`, process `p` ends with the exception `x`. -/
def FailsIn (C : Cfg) (s s' : Sim) (p : ℕ) (x : PyErr) : Prop :=
  Stepped.leads (s.step C) s' ∧ s.points p ≠ Option.none ∧ s'.points p = Option.none ∧ (s'.events p).value = some (.error x)

/-- The simulation goes on from one state to another without raising `x`. -/
inductive GoesOnWithout (C : Cfg) (x : PyErr) : Sim → Sim → Prop
  | refl (s : Sim) : GoesOnWithout C x s s
  | step {s s1 s2 : Sim} : GoesOnWithout C x s s1 → s1.step C = .ok s2 → GoesOnWithout C x s s2
  | stopped {s s1 s2 : Sim} : GoesOnWithout C x s s1 → s1.step C = .stopped s2 → GoesOnWithout C x s s2
  | raised {s s1 s2 : Sim} {y : PyErr} : GoesOnWithout C x s s1 → y ≠ x → s1.step C = .raised s2 y → GoesOnWithout C x s s2
  | stop {s s1 : Sim} (t : ℚ) : GoesOnWithout C x s s1 → GoesOnWithout C x s (s1.setStop t).1
  | compile {s s1 : Sim} : GoesOnWithout C x s s1 → GoesOnWithout C x s (compileAtEnd C s1).1

end Verif.Spec
