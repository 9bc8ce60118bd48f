import Mathlib.Data.Rat.Floor
import Mathlib.Algebra.Order.Floor.Ring
import Mathlib.Tactic.Linarith

/-!
# Rounding to four decimals

No line of /repo is modelled here: `np.around(x, 4)` and `round(x, 4)` on exact rationals (round half to even; both functions
do the same on the scaled number `x * 10000`, up to floating-point representation, which is not modelled).
-/

namespace PyCTBN

/-- `np.rint`: the nearest integer, the even one of two equally near. -/
def rint (q : ℚ) : ℤ :=
  if q - ⌊q⌋ < 1 / 2 then ⌊q⌋
  else if 1 / 2 < q - ⌊q⌋ then ⌊q⌋ + 1
  else if ⌊q⌋ % 2 = 0 then ⌊q⌋ else ⌊q⌋ + 1

/-- `np.around(q, 4)`, `round(q, 4)`. -/
def round4 (q : ℚ) : ℚ := (rint (q * 10000) : ℚ) / 10000

end PyCTBN
