import Verif.Spec.Simulation
/-! # Specification: one call of `run` or two (property C83) -/
namespace Verif.Spec
open Verif

/-- The states of a simulation that was used without exceptions: steps, and calls of `run`. -/
inductive Smooth (C : Cfg) (w : Mach) (args : Option EnvArgs) (t : ℚ) : Sim → Prop
  | init : Smooth C w args t (Sim.init w args t)
  | step {s s' : Sim} : Smooth C w args t s → s.step C = .ok s' → Smooth C w args t s'
  | run {s s' : Sim} {q : ℚ} : Smooth C w args t s → RunCall C s q s' (.ok ()) → Smooth C w args t s'

/-- Nobody can tell two simulations apart: the clocks, everything in the model and its modules, and all reports. -/
structure LooksAlike (s s' : Sim) : Prop where
  now : s.now = s'.now
  w : s.w = s'.w
  trace : s.trace = s'.trace

/-- `run(t1)`, and then `run(t2)`, unless an exception is raised. -/
inductive RunTwice (C : Cfg) (s : Sim) (t1 t2 : ℚ) : Sim → Except PyErr Unit → Prop
  | failed {s1 : Sim} {x : PyErr} : RunCall C s t1 s1 (.error x) → RunTwice C s t1 t2 s1 (.error x)
  | both {s1 s2 : Sim} {r : Except PyErr Unit} : RunCall C s t1 s1 (.ok ()) → RunCall C s1 t2 s2 r → RunTwice C s t1 t2 s2 r

end Verif.Spec
