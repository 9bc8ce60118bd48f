import Verif.Spec.Scipy
import Mathlib.Analysis.SpecialFunctions.Pow.Real
import Mathlib.Analysis.SpecialFunctions.Log.Basic
import Mathlib.Order.Filter.AtTopBot.Basic

/-!
# Specification vocabulary: significance levels that depend on the amount of data
-/
namespace PyCTBN.Spec
open Filter

/-- A significance level, as a function of the amount of data, that vanishes like a power, but more slowly than the inverse of the
amount: eventually `0 < A s ≤ s ^ (-γ)` for some `γ > 0`, while `s * A s` tends to infinity.  For example `1 / √s`. -/
structure ShrinkingLevel (A : ℝ → ℝ) : Prop where
  small : ∃ γ : ℝ, 0 < γ ∧ ∀ᶠ s in atTop, 0 < A s ∧ A s ≤ s ^ (-γ)
  slow : Tendsto (fun s => s * A s) atTop atTop

/-- What such levels make of the quantiles of a family of tests: with numbers of exits proportional to the amount of data `s`, the
quantiles of the F distribution approach 1, but stay away from it by something of the order of the fluctuations, `√(log s / s)`; the
chi-square quantile grows at least like `log s` and slower than `s`; the data-size threshold does not grow as fast as `s`. -/
structure LevelsTighten (Q : ℝ → IndepParams) (c : Nat) : Prop where
  tight : ∀ κ : ℝ, 0 < κ → ∀ ε : ℝ, 0 < ε → ∀ᶠ s : ℝ in atTop, ∀ r1 r2 : ℕ, κ * s ≤ r1 → κ * s ≤ r2 →
    ∃ lo hi : ℝ, (Q s).fPpf ((Q s).expTestSign / 2) r1 r2 = .fin lo ∧ (Q s).fPpf (1 - (Q s).expTestSign / 2) r1 r2 = .fin hi ∧
      |lo - 1| < ε ∧ |hi - 1| < ε
  wide : ∀ κ : ℝ, 0 < κ → ∃ η : ℝ, 0 < η ∧ ∀ᶠ s : ℝ in atTop, ∀ r1 r2 : ℕ, κ * s ≤ r1 → κ * s ≤ r2 → κ * r1 ≤ s →
    ∃ lo hi : ℝ, (Q s).fPpf ((Q s).expTestSign / 2) r1 r2 = .fin lo ∧ (Q s).fPpf (1 - (Q s).expTestSign / 2) r1 r2 = .fin hi ∧
      lo ≤ 1 - η * Real.sqrt (Real.log s / s) ∧ 1 + η * Real.sqrt (Real.log s / s) ≤ hi
  chiUp : ∀ κ : ℝ, 0 < κ → ∀ᶠ s : ℝ in atTop, ∃ z : ℝ, (Q s).chi2Ppf (1 - (Q s).chiTestAlfa) ((c : ℝ) - 1) = .fin z ∧ z < κ * s
  chiLow : ∃ η : ℝ, 0 < η ∧ ∀ᶠ s : ℝ in atTop, ∃ z : ℝ, (Q s).chi2Ppf (1 - (Q s).chiTestAlfa) ((c : ℝ) - 1) = .fin z ∧ η * Real.log s < z
  thumb : ∀ κ : ℝ, 0 < κ → ∀ᶠ s : ℝ in atTop, (Q s).thumbThreshold < κ * s

end PyCTBN.Spec
