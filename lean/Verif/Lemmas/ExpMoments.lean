import Mathlib.Probability.Distributions.Exponential
import Mathlib.Probability.Moments.Variance
import Mathlib.MeasureTheory.Integral.Pi

/-!
# Moments of exponential clocks

Mean and second moment of an exponential law, and the second moment of a linear form in independent exponential clocks.
-/

open MeasureTheory ProbabilityTheory Set
open scoped ENNReal

namespace PyCTBN.Clocks

theorem exp_moment {ρ : ℝ} (h : 0 < ρ) (n : Nat) : ∫ x, x ^ n ∂expMeasure ρ = n.factorial / ρ ^ n := by
  unfold expMeasure gammaMeasure
  rw [integral_withDensity_eq_integral_toReal_smul]
  · have e : ∀ x : ℝ, (gammaPDF 1 ρ x).toReal • x ^ n = (Ici (0 : ℝ)).indicator (fun x => ρ * (x ^ n * Real.exp (-(ρ * x)))) x := by
      intro x
      rw [show gammaPDF 1 ρ x = exponentialPDF ρ x from rfl, exponentialPDF_eq]
      by_cases hx : 0 ≤ x
      · rw [if_pos hx, indicator_of_mem (by exact hx), ENNReal.toReal_ofReal (by positivity), smul_eq_mul]; ring
      · rw [if_neg hx, indicator_of_notMem (by exact hx)]; simp
    simp_rw [e]
    rw [integral_indicator measurableSet_Ici, integral_Ici_eq_integral_Ioi, integral_const_mul]
    have := Real.integral_rpow_mul_exp_neg_mul_Ioi (a := (n : ℝ) + 1) (by positivity) h
    rw [Real.Gamma_nat_eq_factorial] at this
    simp only [add_sub_cancel_right, Real.rpow_natCast] at this
    rw [this]
    have hp : (1 / ρ) ^ ((n : ℝ) + 1) = (1 / ρ) ^ (n + 1) := by
      rw [← Real.rpow_natCast]; push_cast; rfl
    rw [hp, one_div, inv_pow, pow_succ]
    field_simp
  · exact (measurable_gammaPDFReal 1 ρ).ennreal_ofReal
  · exact ae_of_all _ (fun x => ENNReal.ofReal_lt_top)

theorem exp_pow_integrable {ρ : ℝ} (h : 0 < ρ) (n : Nat) : Integrable (fun x : ℝ => x ^ n) (expMeasure ρ) := by
  by_contra hn
  have := exp_moment h n
  rw [integral_undef hn] at this
  have : (0 : ℝ) < n.factorial / ρ ^ n := by positivity
  linarith

theorem exp_mean {ρ : ℝ} (h : 0 < ρ) : ∫ x, x ∂expMeasure ρ = 1 / ρ := by
  have := exp_moment h 1
  simpa using this

theorem exp_integrable {ρ : ℝ} (h : 0 < ρ) : Integrable (fun x : ℝ => x) (expMeasure ρ) := by
  simpa using exp_pow_integrable h 1

theorem exp_memLp {ρ : ℝ} (h : 0 < ρ) : MemLp (fun x : ℝ => x) 2 (expMeasure ρ) :=
  (memLp_two_iff_integrable_sq (by fun_prop)).2 (exp_pow_integrable h 2)

theorem exp_variance {ρ : ℝ} (h : 0 < ρ) : Var[fun x : ℝ => x; expMeasure ρ] = 1 / ρ ^ 2 := by
  have := isProbabilityMeasure_expMeasure h
  rw [variance_eq_sub (exp_memLp h)]
  have h2 := exp_moment h 2
  have e : ∫ x, ((fun x : ℝ => x) ^ 2) x ∂expMeasure ρ = 2 / ρ ^ 2 := by
    simpa using h2
  rw [e, exp_mean h]
  field_simp
  norm_num

/-- Mean and second moment of a linear form in independent exponential clocks. -/
theorem linear_form {n : Nat} {R : Fin n → ℝ} (hR : ∀ i, 0 < R i) (b c : Fin n → ℝ) :
    Integrable (fun h : Fin n → ℝ => ∑ i, (b i - c i * h i)) (Measure.pi (fun i => expMeasure (R i))) ∧
    ∫ h, ∑ i, (b i - c i * h i) ∂Measure.pi (fun i => expMeasure (R i)) = ∑ i, (b i - c i / R i) ∧
    Integrable (fun h : Fin n → ℝ => (∑ i, (b i - c i * h i)) ^ 2) (Measure.pi (fun i => expMeasure (R i))) ∧
    ∫ h, (∑ i, (b i - c i * h i)) ^ 2 ∂Measure.pi (fun i => expMeasure (R i))
      = ∑ i, c i ^ 2 / R i ^ 2 + (∑ i, (b i - c i / R i)) ^ 2 := by
  have hP : ∀ i, IsProbabilityMeasure (expMeasure (R i)) := fun i => isProbabilityMeasure_expMeasure (hR i)
  have hX : ∀ i, MemLp (fun x : ℝ => b i - c i * x) 2 (expMeasure (R i)) := fun i =>
    (memLp_const (b i)).sub ((exp_memLp (hR i)).const_mul (c i))
  have hXi : ∀ i, MemLp (fun h : Fin n → ℝ => b i - c i * h i) 2 (Measure.pi (fun i => expMeasure (R i))) := fun i =>
    (hX i).comp_measurePreserving (measurePreserving_eval (fun i => expMeasure (R i)) i)
  have hS : MemLp (fun h : Fin n → ℝ => ∑ i, (b i - c i * h i)) 2 (Measure.pi (fun i => expMeasure (R i))) :=
    memLp_finsetSum _ (fun i _ => hXi i)
  have hmean : ∫ h, ∑ i, (b i - c i * h i) ∂Measure.pi (fun i => expMeasure (R i)) = ∑ i, (b i - c i / R i) := by
    rw [integral_finsetSum _ (fun i _ => (hXi i).integrable one_le_two)]
    refine Finset.sum_congr rfl (fun i _ => ?_)
    rw [integral_comp_eval (μ := fun i => expMeasure (R i)) (f := fun x : ℝ => b i - c i * x) (hX i).aestronglyMeasurable,
      integral_sub (integrable_const _) ((exp_integrable (hR i)).const_mul _), integral_const, integral_const_mul, exp_mean (hR i)]
    simp [div_eq_mul_inv]
  refine ⟨hS.integrable one_le_two, hmean, hS.integrable_sq, ?_⟩
  have hv := variance_sum_pi (μ := fun i => expMeasure (R i)) hX
  have e : (∑ i, fun ω : Fin n → ℝ => (fun x : ℝ => b i - c i * x) (ω i)) = fun h : Fin n → ℝ => ∑ i, (b i - c i * h i) := by
    funext h; rw [Finset.sum_apply]
  rw [e, variance_eq_sub hS, hmean] at hv
  have hvi : ∀ i, Var[fun x : ℝ => b i - c i * x; expMeasure (R i)] = c i ^ 2 / R i ^ 2 := by
    intro i
    rw [variance_const_sub (by fun_prop), variance_const_mul, exp_variance (hR i)]
    ring
  simp only [hvi] at hv
  have e2 : ∫ x, ((fun h : Fin n → ℝ => ∑ i, (b i - c i * h i)) ^ 2) x ∂Measure.pi (fun i => expMeasure (R i))
      = ∫ h, (∑ i, (b i - c i * h i)) ^ 2 ∂Measure.pi (fun i => expMeasure (R i)) := rfl
  rw [e2] at hv
  linarith

end PyCTBN.Clocks
