import Verif.Spec.Strike
import Verif.Spec.Service
/-! # Specification: simpy is not misused (property C88) -/
namespace Verif.Spec
open Verif

/-- The process of a module has failed with the exception `x`. -/
def ModuleFailed (s : Sim) (x : PyErr) : Prop := ∃ n p, (n, p) ∈ s.extra ∧ s.points p = Option.none ∧ (s.events p).value = some (.error x)

end Verif.Spec
