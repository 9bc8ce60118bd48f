import Verif.Spec.Indep
import Verif.Spec.Float

/-!
# Borderline cases of the two-CIM test

A rule is borderline if its statistic, computed exactly, is so close to the threshold that rounding could decide.
-/

namespace PyCTBN.Spec

/-- `m` relative errors `u` add up to at most this relative error. -/
noncomputable def gam (u : ℝ) (m : Nat) : ℝ := ((1 - u) ^ m)⁻¹ - 1

/-- The number of transitions per degree of freedom is within one rounding of the threshold. -/
def ScarceBorder (P : IndepParams) (u : ℝ) (c : Nat) (m : Nat → Nat → Nat) (thumb : Nat) : Prop :=
  2 < c ∧ thumb ≠ 0 ∧
    |P.thumbThreshold - ((∑ x ∈ Finset.range c, m x x : ℕ) : ℝ) / thumb| ≤ gam u 1 * (((∑ x ∈ Finset.range c, m x x : ℕ) : ℝ) / thumb)

/-- A quantile of the F test is within `k` relative errors of the ratio of the two intensities. -/
def FBorder (P : IndepParams) (u : ℝ) (k : Nat) (m1 m2 : Nat → Nat → Nat) (q1 q2 : Nat → Nat → ℚ) (x : Nat) : Prop :=
  q1 x x ≠ 0 ∧ ∃ q, (P.fPpf (P.expTestSign / 2) (m1 x x) (m2 x x) = .fin q ∨ P.fPpf (1 - P.expTestSign / 2) (m1 x x) (m2 x x) = .fin q) ∧
    |q - (q2 x x : ℝ) / (q1 x x : ℝ)| ≤ gam u k * |(q2 x x : ℝ) / (q1 x x : ℝ)|

/-- The statistic with sums instead of differences: the scale of its rounding errors. -/
noncomputable def chiScale (c : Nat) (m1 m2 : Nat → Nat → Nat) (x : Nat) : ℝ :=
  ∑ y ∈ (Finset.range c).erase x, ((m1 x x : ℝ) * m2 x y + m2 x x * m1 x y) ^ 2 / (m1 x x * m2 x x * (m1 x y + m2 x y))

/-- The quantile of the chi-square test is within the rounding error of the statistic. -/
def ChiBorder (P : IndepParams) (u : ℝ) (c : Nat) (m1 m2 : Nat → Nat → Nat) (x : Nat) : Prop :=
  ChiDefined c m1 m2 x ∧ ∃ q, P.chi2Ppf (1 - P.chiTestAlfa) ((c : ℝ) - 1) = .fin q ∧
    |q - chiSquare c m1 m2 x| ≤ gam u (c + 9) * chiScale c m1 m2 x

end PyCTBN.Spec
