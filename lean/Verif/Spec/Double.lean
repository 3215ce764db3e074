import Mathlib.Data.Int.Log
import Mathlib.Data.Real.Archimedean
import Mathlib.Algebra.Order.Floor.Ring
import Mathlib.Algebra.Ring.Parity

/-!
# Specification: rounding to double precision
-/

namespace Spec

noncomputable section

open Classical in
/-- The integer nearest to `y`, the even one of two. -/
def nearestEven (y : ℝ) : ℤ :=
  if y - ⌊y⌋ < 1 / 2 then ⌊y⌋
  else if 1 / 2 < y - ⌊y⌋ then ⌊y⌋ + 1
  else if Even ⌊y⌋ then ⌊y⌋ else ⌊y⌋ + 1

open Classical in
/-- Rounding of a real number to 53 binary digits, to nearest, ties to even: as IEEE 754 doubles, except that the exponent is
not limited (no overflow, no subnormal numbers). -/
def roundDouble (x : ℝ) : ℝ :=
  if x = 0 then 0 else nearestEven (x / 2 ^ (Int.log 2 |x| - 52)) * 2 ^ (Int.log 2 |x| - 52)

end

end Spec
