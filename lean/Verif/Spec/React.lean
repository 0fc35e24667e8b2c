import Verif.Spec.Simulation
/-! # Reactions to what modules report -/
namespace Verif.Spec
open Verif

/-- The last report about rules is that one was selected or fired: it is still under way. -/
def Engaged (l : List (ℚ × Verif.Ev)) : Prop := ∃ r u n, timedReports l = r ++ [(u, .selected n)] ∨ timedReports l = r ++ [(u, .fired n)]

/-- If modules reported something at time `t`, then at this time rules were tried, or a rule is still under way. -/
def Heeded (l : List (ℚ × Verif.Ev)) (t : ℚ) : Prop := (∃ x ∈ l, x.1 = t ∧ x.2.proc ≠ procName) → (∃ y ∈ l, y.1 = t ∧ y.2.act = .conflict) ∨ Engaged l

end Verif.Spec
