import Mathlib.Data.Rat.Floor
/-! Rounding of times. -/
namespace Verif

/-- Python's `round` to the nearest integer, ties to even. -/
def roundEven (q : ℚ) : ℤ :=
  let f := ⌊q⌋
  let r := q - f
  if r < 1/2 then f else if 1/2 < r then f + 1 else if f % 2 = 0 then f else f + 1

/-- `round(float(q), 4)` as used for all times (declarative.py:60,89,95; simulation.py). Simplification: exact rationals
instead of binary floating-point numbers. -/
def round4 (q : ℚ) : ℚ := (roundEven (q * 10000) : ℚ) / 10000

end Verif
