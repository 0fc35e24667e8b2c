import Mathlib.Data.Rat.Defs
import Mathlib.Algebra.Order.Ring.Rat
import Mathlib.Algebra.Order.Group.Unbundled.Abs
import Mathlib.Algebra.Ring.Parity
/-! # Specification of rounding to four decimals -/
namespace Verif.Spec

/-- `r` is `q` rounded to four decimals, ties to even. -/
def IsRounded (q r : ℚ) : Prop :=
  ∃ k : ℤ, r = k / 10000 ∧ |q - r| ≤ 1 / 20000 ∧ (|q - r| = 1 / 20000 → Even k)

end Verif.Spec
