import Mathlib.Analysis.SpecialFunctions.Pow.Real
import Mathlib.Analysis.SpecialFunctions.Log.Basic
/-! # Specification of base-level activation -/
namespace Verif.Spec

/-- All traces are in the past. -/
def Past (now : ℚ) (times : List ℚ) : Prop := ∀ t ∈ times, t < now

/-- Base-level activation at time `now` of a chunk with the given traces: ln of the sum of age^-d. -/
noncomputable def baseLevel (now : ℚ) (d : ℝ) (times : List ℚ) : ℝ :=
  Real.log ((times.map (fun t : ℚ => (((now - t : ℚ) : ℝ)) ^ (-d))).sum)

end Verif.Spec
