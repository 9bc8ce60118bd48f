import Mathlib.Probability.Distributions.Gamma
import Mathlib.MeasureTheory.Measure.Prod
import Verif.Model.Indep

/-!
# The quantile functions of scipy

`independence_test` takes `f_dist.ppf` and `chi2_dist.ppf` from scipy; the model leaves them open.  Here is what they compute, apart
from floating point: the quantiles of the chi-square and F distributions.
-/
namespace PyCTBN.Spec
open MeasureTheory ProbabilityTheory

/-- The chi-square distribution with `d` degrees of freedom. -/
noncomputable def chiSquareDist (d : ℝ) : Measure ℝ := gammaMeasure (d / 2) (1 / 2)

/-- The F distribution with `d1` and `d2` degrees of freedom: the law of the quotient of two independent chi-square variables, each
divided by its degrees of freedom. -/
noncomputable def fDist (d1 d2 : ℝ) : Measure ℝ := ((chiSquareDist d1).prod (chiSquareDist d2)).map (fun p => (p.1 / d1) / (p.2 / d2))

/-- The `q`-quantile: the least `x` with probability of `≤ x` at least `q`. -/
noncomputable def quantile (μ : Measure ℝ) (q : ℝ) : ℝ := sInf {x | q ≤ μ.real (Set.Iic x)}

open Classical in
/-- `ppf(q, …)` of `scipy.stats` for a distribution on the positive numbers: `NaN` for invalid parameters or a level outside `[0, 1]`, the
ends of the support at level 0 and 1. -/
noncomputable def ppf (valid : Prop) (μ : Measure ℝ) (q : ℝ) : XR :=
  if ¬ valid ∨ q < 0 ∨ 1 < q then .nan else if q = 0 then .fin 0 else if q = 1 then .pinf else .fin (quantile μ q)

/-- The estimator's parameters with scipy's quantiles. -/
noncomputable def scipyParams (expTestSign chiTestAlfa thumbThreshold : ℝ) : IndepParams where
  expTestSign := expTestSign
  chiTestAlfa := chiTestAlfa
  thumbThreshold := thumbThreshold
  fPpf q d1 d2 := ppf (0 < d1 ∧ 0 < d2) (fDist d1 d2) q
  chi2Ppf q d := ppf (0 < d) (chiSquareDist d) q

end PyCTBN.Spec
