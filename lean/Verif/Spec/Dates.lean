import Verif.Model.Simulation
/-! # Specification: when something was remembered (property C77) -/
namespace Verif.Spec
open Verif

/-- Some chunk in a declarative memory has a trace of this time. -/
def Remembered (w : Mach) (q : ℚ) : Prop := ∃ m ∈ w.mems, ∃ c l, (c, l) ∈ m.data ∧ q ∈ l

/-- Every shift of attention that succeeds takes at most the time `D` for encoding, and its other times are not negative. -/
def ShiftsWithin (C : Cfg) (D : ℚ) : Prop := ∀ k focus site delay r, C.emma k focus site delay = .ok r → r.1.1 ≤ D ∧ 0 ≤ r.1.2.1 ∧ 0 ≤ r.1.2.2

end Verif.Spec
