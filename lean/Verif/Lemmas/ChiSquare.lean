import Verif.Spec.Scipy
import Mathlib.Probability.CDF
import Mathlib.MeasureTheory.Integral.Lebesgue.Markov

/-! # Moments of the chi-square distribution, quantiles -/
namespace PyCTBN
open MeasureTheory ProbabilityTheory Spec Set Filter Topology
open scoped ENNReal

theorem chiSquareDist_prob {d : ℝ} (hd : 0 < d) : IsProbabilityMeasure (chiSquareDist d) :=
  isProbabilityMeasure_gammaMeasure (by positivity) (by norm_num)

theorem chiSquareDist_Iic_zero (d : ℝ) : chiSquareDist d (Iic 0) = 0 := by
  unfold chiSquareDist gammaMeasure
  rw [withDensity_apply _ measurableSet_Iic, setLIntegral_congr Iio_ae_eq_Iic.symm]
  exact lintegral_gammaPDF_of_nonpos le_rfl

theorem chiSquareDist_pos (d : ℝ) : ∀ᵐ x ∂chiSquareDist d, 0 < x := by
  have := chiSquareDist_Iic_zero d
  rw [ae_iff]
  simp only [not_lt]
  exact this

/-- Raising the power of the variable by one raises the shape by one. -/
theorem gammaPDF_mul_self {a r : ℝ} (ha : 0 < a) (hr : 0 < r) (x : ℝ) :
    gammaPDF a r x * ENNReal.ofReal x = ENNReal.ofReal (a / r) * gammaPDF (a + 1) r x := by
  rcases lt_or_ge x 0 with hx | hx
  · rw [gammaPDF_of_neg hx, gammaPDF_of_neg hx, zero_mul, mul_zero]
  · rw [gammaPDF_of_nonneg hx, gammaPDF_of_nonneg hx, ← ENNReal.ofReal_mul (by positivity),
      ← ENNReal.ofReal_mul (by positivity)]
    congr 1
    have h1 : x ^ (a - 1) * x = x ^ (a + 1 - 1) := by
      rcases hx.eq_or_lt with rfl | hx
      · rw [mul_zero, show a + 1 - 1 = a by ring, Real.zero_rpow ha.ne']
      · rw [show a + 1 - 1 = (a - 1) + 1 by ring, Real.rpow_add hx, Real.rpow_one]
    have h2 : Real.Gamma (a + 1) = a * Real.Gamma a := Real.Gamma_add_one ha.ne'
    have h3 : r ^ (a + 1) = r ^ a * r := by rw [Real.rpow_add hr, Real.rpow_one]
    have h4 : Real.Gamma a ≠ 0 := (Real.Gamma_pos_of_pos ha).ne'
    rw [← h1, h2, h3]
    field_simp

theorem measurable_gammaPDF' (a r : ℝ) : Measurable (gammaPDF a r) := (measurable_gammaPDFReal a r).ennreal_ofReal

theorem gamma_mean {a r : ℝ} (ha : 0 < a) (hr : 0 < r) : ∫⁻ x, ENNReal.ofReal x ∂gammaMeasure a r = ENNReal.ofReal (a / r) := by
  unfold gammaMeasure
  rw [lintegral_withDensity_eq_lintegral_mul _ (measurable_gammaPDF' a r) ENNReal.measurable_ofReal]
  simp only [Pi.mul_apply, gammaPDF_mul_self ha hr]
  rw [lintegral_const_mul _ (measurable_gammaPDF' _ _), lintegral_gammaPDF_eq_one (by positivity) hr, mul_one]

theorem gamma_square {a r : ℝ} (ha : 0 < a) (hr : 0 < r) :
    ∫⁻ x, ENNReal.ofReal x * ENNReal.ofReal x ∂gammaMeasure a r = ENNReal.ofReal (a / r) * ENNReal.ofReal ((a + 1) / r) := by
  have h := gamma_mean (a := a + 1) (by positivity) hr
  unfold gammaMeasure at h ⊢
  rw [lintegral_withDensity_eq_lintegral_mul _ (measurable_gammaPDF' _ r) ENNReal.measurable_ofReal] at h
  rw [lintegral_withDensity_eq_lintegral_mul _ (measurable_gammaPDF' a r) (by fun_prop : Measurable fun x : ℝ => ENNReal.ofReal x * ENNReal.ofReal x)]
  simp only [Pi.mul_apply, ← mul_assoc, gammaPDF_mul_self ha hr] at h ⊢
  simp only [mul_assoc]
  have hmeas : Measurable fun x => gammaPDF (a + 1) r x * ENNReal.ofReal x := (measurable_gammaPDF' (a + 1) r).mul ENNReal.measurable_ofReal
  rw [lintegral_const_mul _ hmeas, h]

/-- The variance of a chi-square variable divided by its degrees of freedom. -/
theorem chiSquareDist_variance {d : ℝ} (hd : 0 < d) : ∫⁻ x, ENNReal.ofReal ((x / d - 1) ^ 2) ∂chiSquareDist d = ENNReal.ofReal (2 / d) := by
  have := chiSquareDist_prob hd
  have hm : ∫⁻ x, ENNReal.ofReal x ∂chiSquareDist d = ENNReal.ofReal d := by
    have := gamma_mean (a := d / 2) (r := 1 / 2) (by positivity) (by norm_num)
    rw [show d / 2 / (1 / 2) = d by ring] at this
    exact this
  have hs : ∫⁻ x, ENNReal.ofReal x * ENNReal.ofReal x ∂chiSquareDist d = ENNReal.ofReal (d * (d + 2)) := by
    have := gamma_square (a := d / 2) (r := 1 / 2) (by positivity) (by norm_num)
    rw [show d / 2 / (1 / 2) = d by ring, show (d / 2 + 1) / (1 / 2) = d + 2 by ring, ← ENNReal.ofReal_mul hd.le] at this
    exact this
  have key : ∫⁻ x, (ENNReal.ofReal ((x / d - 1) ^ 2) + ENNReal.ofReal (2 / d) * ENNReal.ofReal x) ∂chiSquareDist d =
      ∫⁻ x, (ENNReal.ofReal (1 / d ^ 2) * (ENNReal.ofReal x * ENNReal.ofReal x) + 1) ∂chiSquareDist d := by
    apply lintegral_congr_ae
    filter_upwards [chiSquareDist_pos d] with x hx
    rw [← ENNReal.ofReal_mul (by positivity), ← ENNReal.ofReal_add (by positivity) (by positivity), ← ENNReal.ofReal_mul hx.le,
      ← ENNReal.ofReal_mul (by positivity), ← ENNReal.ofReal_one, ← ENNReal.ofReal_add (by positivity) (by norm_num)]
    congr 1
    field_simp
    ring
  rw [lintegral_add_right _ (ENNReal.measurable_ofReal.const_mul _), lintegral_const_mul _ ENNReal.measurable_ofReal, hm,
    lintegral_add_right _ measurable_const, lintegral_const_mul _ (by fun_prop : Measurable fun x : ℝ => ENNReal.ofReal x * ENNReal.ofReal x), hs,
    lintegral_const, measure_univ, mul_one, ← ENNReal.ofReal_mul (by positivity), ← ENNReal.ofReal_mul (by positivity),
    ← ENNReal.ofReal_one, ← ENNReal.ofReal_add (by positivity) (by norm_num),
    show 1 / d ^ 2 * (d * (d + 2)) + 1 = 2 / d + 2 / d * d by field_simp; ring,
    ENNReal.ofReal_add (by positivity) (by positivity)] at key
  exact (ENNReal.add_left_inj ENNReal.ofReal_ne_top).1 key

/-- Chebyshev's inequality. -/
theorem chiSquareDist_deviation {d : ℝ} (hd : 0 < d) {δ : ℝ} (hδ : 0 < δ) :
    (chiSquareDist d).real {x | δ ≤ |x / d - 1|} ≤ 2 / (d * δ ^ 2) := by
  have hp := chiSquareDist_prob hd
  have h := mul_meas_ge_le_lintegral (μ := chiSquareDist d) (f := fun x => ENNReal.ofReal ((x / d - 1) ^ 2)) (by fun_prop)
    (ENNReal.ofReal (δ ^ 2))
  rw [chiSquareDist_variance hd] at h
  have e : {x : ℝ | ENNReal.ofReal (δ ^ 2) ≤ ENNReal.ofReal ((x / d - 1) ^ 2)} = {x | δ ≤ |x / d - 1|} := by
    ext x
    simp only [mem_ofPred_eq]
    rw [ENNReal.ofReal_le_ofReal_iff (by positivity), sq_le_sq, abs_of_pos hδ]
  rw [e, ← ofReal_measureReal, ← ENNReal.ofReal_mul (by positivity), ENNReal.ofReal_le_ofReal_iff (by positivity)] at h
  rw [le_div_iff₀ (by positivity)]
  have : δ ^ 2 * (chiSquareDist d).real {x | δ ≤ |x / d - 1|} * d ≤ 2 := by
    rw [← le_div_iff₀ hd]; exact h
  nlinarith

/-! ## Quantiles -/

section Quantile
variable {μ : Measure ℝ} [IsProbabilityMeasure μ] {q : ℝ}

theorem quantile_set_nonempty (h1 : q < 1) : {x | q ≤ μ.real (Iic x)}.Nonempty := by
  have := tendsto_cdf_atTop μ
  obtain ⟨x, hx⟩ := (this.eventually (lt_mem_nhds h1)).exists
  exact ⟨x, by rw [mem_ofPred_eq, ← cdf_eq_real]; exact hx.le⟩

theorem quantile_set_below (h0 : 0 < q) : ∃ b, ∀ x ∈ {x | q ≤ μ.real (Iic x)}, b ≤ x := by
  have := tendsto_cdf_atBot μ
  obtain ⟨b, hb⟩ := (this.eventually (gt_mem_nhds h0)).exists
  refine ⟨b, fun x hx => ?_⟩
  by_contra hlt
  rw [mem_ofPred_eq, ← cdf_eq_real] at hx
  exact absurd (hx.trans ((monotone_cdf μ) (not_le.1 hlt).le)) (not_le.2 hb)

theorem quantile_le (h0 : 0 < q) {x : ℝ} (hx : q ≤ μ.real (Iic x)) : quantile μ q ≤ x := by
  obtain ⟨b, hb⟩ := quantile_set_below (μ := μ) h0
  exact csInf_le ⟨b, hb⟩ hx

theorem le_quantile (h1 : q < 1) {x : ℝ} (hx : ∀ y < x, μ.real (Iic y) < q) : x ≤ quantile μ q := by
  refine le_csInf (quantile_set_nonempty h1) (fun y hy => ?_)
  by_contra hlt
  exact absurd hy (not_le.2 (hx y (not_le.1 hlt)))

theorem quantile_mono (h0 : 0 < q) {q' : ℝ} (hqq : q ≤ q') (h1 : q' < 1) : quantile μ q ≤ quantile μ q' := by
  refine le_quantile h1 (fun y hy => ?_)
  by_contra hge
  exact absurd (quantile_le h0 (hqq.trans (not_lt.1 hge))) (not_le.2 hy)

theorem quantile_nonneg (hμ : μ (Iic 0) = 0) (h0 : 0 < q) (h1 : q < 1) : 0 ≤ quantile μ q := by
  refine le_quantile h1 (fun y hy => ?_)
  have : μ (Iic y) = 0 := measure_mono_null (Iic_subset_Iic.2 hy.le) hμ
  rw [measureReal_def, this]
  simpa using h0

end Quantile

/-- A chi-square quantile is not far above the degrees of freedom. -/
theorem quantile_chiSquareDist_le {d β : ℝ} (hd : 0 < d) (hβ : 0 < β) (hβ1 : β < 1) :
    quantile (chiSquareDist d) (1 - β) ≤ d + Real.sqrt (2 * d / β) := by
  have := chiSquareDist_prob hd
  set δ := Real.sqrt (2 * d / β) / d with hδd
  have hs : 0 < Real.sqrt (2 * d / β) := Real.sqrt_pos.2 (by positivity)
  have hδ : 0 < δ := by positivity
  have hsq : d * δ ^ 2 = 2 / β := by
    rw [hδd, div_pow, Real.sq_sqrt (by positivity)]
    field_simp
  refine quantile_le (by linarith) ?_
  have hdev := chiSquareDist_deviation hd hδ
  rw [hsq] at hdev
  have h2 : (2 : ℝ) / (2 / β) = β := by field_simp
  rw [h2] at hdev
  have hc : (Iic (d + Real.sqrt (2 * d / β)))ᶜ ⊆ {x : ℝ | δ ≤ |x / d - 1|} := by
    intro x hx
    have hx' : d + Real.sqrt (2 * d / β) < x := not_le.1 hx
    show δ ≤ |x / d - 1|
    refine le_trans ?_ (le_abs_self _)
    rw [hδd, div_sub_one hd.ne']
    gcongr
    linarith
  have h3 := measureReal_mono (μ := chiSquareDist d) hc
  rw [probReal_compl_eq_one_sub measurableSet_Iic] at h3
  linarith
end PyCTBN
