import Verif.Model.Float
import Verif.Model.Round
import Mathlib.Data.Int.Log

/-!
# What is assumed about floating-point rounding, and what accuracy means
-/

namespace PyCTBN.Spec

/-- Rounding with relative error at most `u` (for `float64`, `u = 2⁻⁵³`). -/
def Accurate {K : Type} [Field K] [LinearOrder K] (u : K) (rnd : K → K) : Prop := ∀ x, |rnd x - x| ≤ u * |x|

/-- Integers up to `N` in absolute value are not changed (for `float64`, `N = 2⁵³`). -/
def ExactInts (N : Nat) (rnd : ℚ → ℚ) : Prop := ∀ z : ℤ, z.natAbs ≤ N → rnd (z : ℚ) = z

/-- `x` is `y` up to `m` relative errors `u`: a factor between `(1-u)^m` and its reciprocal. -/
def Near {K : Type} [Field K] [LinearOrder K] (u : K) (m : Nat) (x y : K) : Prop := ∃ θ, (1 - u) ^ m ≤ θ ∧ θ ≤ ((1 - u) ^ m)⁻¹ ∧ x = θ * y

/-- Rounding to the nearest number with `p` significant bits and any exponent (halves to even): binary floating point without overflow and underflow. -/
def binRound (p : Nat) (x : ℚ) : ℚ :=
  let ulp : ℚ := (2 : ℚ) ^ (Int.log 2 |x| - p + 1)
  (rint (x / ulp) : ℚ) * ulp

end PyCTBN.Spec

namespace PyCTBN.Spec

/-- A CIM computed in floating point beside the exact one: same counts, residence times up to `m` relative errors, coefficients up to `m + 2`. -/
structure CimNear (u : ℚ) (m : Nat) (computed exact : Cim) : Prop where
  counts : computed.trans = exact.trans
  times : List.Forall₂ (Near u m) computed.resTimes exact.resTimes
  coeffs : List.Forall₂ (List.Forall₂ (Near u (m + 2))) computed.cim exact.cim

end PyCTBN.Spec

namespace PyCTBN.Spec

/-- A floating-point rounding: relative error at most `u`, monotone on non-negative numbers, the identity on its own results and on 1. -/
structure FloatRounding (u : ℚ) (rnd : ℚ → ℚ) : Prop where
  accurate : Accurate u rnd
  mono : ∀ x y, 0 ≤ x → x ≤ y → rnd x ≤ rnd y
  idem : ∀ x, rnd (rnd x) = rnd x
  one : rnd 1 = 1

end PyCTBN.Spec
