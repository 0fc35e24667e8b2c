import Verif.Spec.Outcome
/-! # Specification: modules stay in service (property C85) -/
namespace Verif.Spec
open Verif

/-- Process `p` serves the module `n`: it is about to begin, waits to be called, or works on a request. -/
def InService (s : Sim) (n : String) (p : ℕ) : Prop :=
  s.points p = some (.extraNew n) ∨ s.points p = some (.extraIdle n) ∨ (∃ pro, s.points p = some (.extraMain n pro)) ∨ s.points p = some (.extraCont n)

/-- Process `p` has ended with the exception `x`, which nobody has taken over, and the simulation is to deal with it at this time. -/
def FailsNow (s : Sim) (p : ℕ) (x : PyErr) : Prop :=
  s.points p = Option.none ∧ (s.events p).value = some (.error x) ∧ (s.events p).defused = false ∧ ∃ en ∈ s.queue, en.ev = p ∧ en.time ≤ s.now

end Verif.Spec
