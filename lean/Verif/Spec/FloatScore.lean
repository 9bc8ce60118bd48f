import Verif.Model.FloatScore
import Verif.Spec.FloatTest
import Verif.Spec.FamScore

/-!
# What is assumed about the floating-point score, and how large its terms are
-/

namespace PyCTBN.Spec

/-- `x` is `y` up to `k` errors relative to a number `A` that is at least `|y|`: absolute error at most `gam u k · A`, where `gam u k = (1-u)^(-k) - 1`. -/
def Within (u : ℝ) (k : Nat) (A x y : ℝ) : Prop := |x - y| ≤ gam u k * A ∧ |y| ≤ A

/-- Rounding has relative error at most `u`; `log` and `loggamma` of positive numbers are right up to `a` such errors relative to 1 plus the size of the value. -/
structure MathOK (u : ℝ) (a : Nat) (F : FloatMath) : Prop where
  rnd : Accurate u F.rnd
  log : ∀ x, 0 < x → |F.log x - Real.log x| ≤ gam u a * (1 + |Real.log x|)
  lgamma : ∀ x, 0 < x → |F.lgamma x - FamScore.loggamma x| ≤ gam u a * (1 + |FamScore.loggamma x|)

/-- The size of a `log` term, and of a `loggamma` term with the effect of an error in its argument. -/
noncomputable def logSize (x : ℝ) : ℝ := 1 + |Real.log x|
@[inherit_doc logSize] noncomputable def gammaSize (x : ℝ) : ℝ := 1 + |FamScore.loggamma x| + x * (1 + |Real.log x|)

/-- The sum of the sizes of the terms of the score of one parent assignment. -/
noncomputable def Stats.size (τ α : ℝ) (c : Nat) (s : Stats) : ℝ :=
  ∑ x ∈ Finset.range c, (gammaSize (α + s.count x x + 1) + logSize τ * (α + 1) + gammaSize (α + 1) +
    logSize (τ + (s.time x : ℝ)) * (α + s.count x x + 1) + gammaSize α + gammaSize (α + s.count x x) +
    ∑ y ∈ (Finset.range c).erase x, (gammaSize (α / (c - 1) + s.count x y) + gammaSize (α / (c - 1))))

end PyCTBN.Spec
