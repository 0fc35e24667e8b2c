import Verif.Spec.Simulation
/-! # Specification: the outcome of rules (property C30 in simulations) -/
namespace Verif.Spec
open Verif

/-- The states of a simulation in which no step has raised an exception. -/
inductive Unraised (C : Cfg) (w : Mach) (args : Option EnvArgs) (t : ℚ) : Sim → Prop
  | init : Unraised C w args t (Sim.init w args t)
  | stop {s : Sim} (q : ℚ) : Unraised C w args t s → Unraised C w args t (s.setStop q).1
  | step {s s' : Sim} : Unraised C w args t s → s.step C = .ok s' → Unraised C w args t s'
  | stopped {s s' : Sim} : Unraised C w args t s → s.step C = .stopped s' → Unraised C w args t s'
  | compile {s : Sim} : Unraised C w args t s → Unraised C w args t (compileAtEnd C s).1

/-- A cycle that is not over, and for which it is not too late: the clock shows at most the time of the next report. -/
inductive OpenCycle (R : ℚ → ℚ → Prop) (now : ℚ) : List (ℚ × Act) → Prop
  | conflict {t : ℚ} : now ≤ t → OpenCycle R now [(t, .conflict)]
  | selected {t u : ℚ} (n : String) : R t u → now ≤ u → OpenCycle R now [(t, .conflict), (t, .selected n)]
  | compiled {t u : ℚ} (n : String) (re : Bool) (m : String) : R t u → now ≤ u → OpenCycle R now [(t, .conflict), (t, .selected n), (u, .compiled re m)]

/-- Complete cycles, and perhaps one that is not over, if it is not too late. -/
def CyclesBy (R : ℚ → ℚ → Prop) (now : ℚ) (l : List (ℚ × Act)) : Prop :=
  ∃ (done : List (List (ℚ × Act))) (rest : List (ℚ × Act)), l = done.flatten ++ rest ∧ (∀ x ∈ done, TimedCycle R x) ∧ (rest = [] ∨ OpenCycle R now rest)

end Verif.Spec
