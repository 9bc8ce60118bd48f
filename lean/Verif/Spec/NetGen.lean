import Verif.Spec.Params
import Verif.Model.NetGen

/-!
# Specification vocabulary for the network generator
-/

namespace PyCTBN.Spec

/-- Entry of a matrix as a number (0 outside). -/
def cell (m : List (List ℚ)) (i j : Nat) : ℚ := ((m[i]?).bind (·[j]?)).getD 0

/-- A `c × c` intensity matrix with exit intensities between `lo` and `hi`, up to rounding to four decimals: the diagonal entries
are within 0.00005 of `-d` with `lo ≤ d ≤ hi`, the others are not negative, and rows sum to 0 within `c · 0.00005`. -/
structure NearIntensity (lo hi : ℚ) (c : Nat) (m : List (List ℚ)) : Prop where
  rows : m.length = c
  cols : ∀ r ∈ m, r.length = c
  diag : ∀ i < c, ∃ d, lo ≤ d ∧ d ≤ hi ∧ |cell m i i + d| ≤ 5 / 100000
  off : ∀ i < c, ∀ j < c, j ≠ i → 0 ≤ cell m i j
  sum : ∀ i < c, |((List.range c).map (cell m i)).sum| ≤ c * (5 / 100000)

/-- Uniform draws are in `[0, 1)`. -/
def UnitDraws (d : NetGen.CimDraws) : Prop :=
  (∀ i k a, 0 ≤ d.u i k a ∧ d.u i k a < 1) ∧ ∀ i k a b, 0 ≤ d.r i k a b ∧ d.r i k a b < 1

/-- No row of draws is zero outside the diagonal (an event of probability zero otherwise). -/
def PositiveDraws (d : NetGen.CimDraws) : Prop := ∀ i k a b, 0 < d.r i k a b

end PyCTBN.Spec
