import Verif.Lemmas.ExpMoments
import Verif.Lemmas.RoundReal
import Mathlib.MeasureTheory.Integral.IntervalIntegral.Periodic
import Mathlib.MeasureTheory.Integral.IntegralEqImproper
import Mathlib.MeasureTheory.Integral.Prod
import Mathlib.Analysis.SpecialFunctions.ImproperIntegrals

/-!
# Exponential times smooth periodic functions out

A bounded periodic function of mean zero, looked at after an exponential time that is long compared with its period, is close to zero on average.
-/

open MeasureTheory ProbabilityTheory Set

namespace PyCTBN.Smoothing

noncomputable section

theorem integral_exp {ρ : ℝ} (h : 0 < ρ) (g : ℝ → ℝ) : ∫ a, g a ∂expMeasure ρ = ∫ a in Ioi (0 : ℝ), ρ * Real.exp (-(ρ * a)) * g a := by
  unfold expMeasure gammaMeasure
  rw [integral_withDensity_eq_integral_toReal_smul]
  · have e : ∀ x : ℝ, (gammaPDF 1 ρ x).toReal • g x = (Ici (0 : ℝ)).indicator (fun x => ρ * Real.exp (-(ρ * x)) * g x) x := by
      intro x
      rw [show gammaPDF 1 ρ x = exponentialPDF ρ x from rfl, exponentialPDF_eq]
      by_cases hx : 0 ≤ x
      · rw [if_pos hx, indicator_of_mem (by exact hx), ENNReal.toReal_ofReal (by positivity), smul_eq_mul]
      · rw [if_neg hx, indicator_of_notMem (by exact hx)]; simp
    simp_rw [e]
    rw [integral_indicator measurableSet_Ici, integral_Ici_eq_integral_Ioi]
  · exact (measurable_gammaPDFReal 1 ρ).ennreal_ofReal
  · exact ae_of_all _ (fun x => ENNReal.ofReal_lt_top)

/-- Bounded by `B`, of period `H`, of mean zero. -/
structure Wave (H B : ℝ) (f : ℝ → ℝ) : Prop where
  meas : Measurable f
  periodic : Function.Periodic f H
  bound : ∀ t, |f t| ≤ B
  mean : ∫ t in (0 : ℝ)..H, f t = 0

variable {H B ρ : ℝ} {f g : ℝ → ℝ}

theorem Wave.zero (H : ℝ) {B : ℝ} (hB : 0 ≤ B) : Wave H B (fun _ => 0) := ⟨measurable_const, fun _ => rfl, by simpa using hB, by simp⟩

theorem Wave.intervalIntegrable (h : Wave H B f) (a b : ℝ) : IntervalIntegrable f volume a b :=
  ⟨(Measure.integrableOn_of_bounded (M := B) (by simp) h.meas.aestronglyMeasurable (.of_forall (fun t => by simpa using h.bound t))),
   (Measure.integrableOn_of_bounded (M := B) (by simp) h.meas.aestronglyMeasurable (.of_forall (fun t => by simpa using h.bound t)))⟩

theorem Wave.mul (h : Wave H B f) (c : ℝ) : Wave H (|c| * B) (fun t => c * f t) where
  meas := h.meas.const_mul c
  periodic t := by simp only [h.periodic t]
  bound t := by rw [abs_mul]; exact mul_le_mul_of_nonneg_left (h.bound t) (abs_nonneg c)
  mean := by rw [intervalIntegral.integral_const_mul, h.mean, mul_zero]

theorem Wave.add {B' : ℝ} (h : Wave H B f) (h' : Wave H B' g) : Wave H (B + B') (fun t => f t + g t) where
  meas := h.meas.add h'.meas
  periodic t := by simp only [h.periodic t, h'.periodic t]
  bound t := (abs_add_le _ _).trans (add_le_add (h.bound t) (h'.bound t))
  mean := by rw [intervalIntegral.integral_add (h.intervalIntegrable _ _) (h'.intervalIntegrable _ _), h.mean, h'.mean, add_zero]

theorem Wave.mono {B' : ℝ} (h : Wave H B f) (hB : B ≤ B') : Wave H B' f := ⟨h.meas, h.periodic, fun t => (h.bound t).trans hB, h.mean⟩

theorem Wave.shift (h : Wave H B f) (t : ℝ) : Wave H B (fun a => f (t + a)) where
  meas := h.meas.comp (measurable_const_add t)
  periodic a := by simp only [← add_assoc, h.periodic (t + a)]
  bound a := h.bound _
  mean := by
    rw [intervalIntegral.integral_comp_add_left (fun a => f a) t, add_zero, add_comm t H, add_comm H t, h.periodic.intervalIntegral_add_eq t 0, zero_add]
    exact h.mean

theorem Wave.integrable (h : Wave H B f) (hρ : 0 < ρ) : Integrable f (expMeasure ρ) := by
  have := isProbabilityMeasure_expMeasure hρ
  exact (integrable_const B).mono' h.meas.aestronglyMeasurable (.of_forall (fun t => by simpa using h.bound t))

/-- The mean after an exponential time is small when the period is short. -/
theorem Wave.small (h : Wave H B f) (hH : 0 < H) (hρ : 0 < ρ) : |∫ a, f a ∂expMeasure ρ| ≤ ρ * H * B := by
  have hB : 0 ≤ B := (abs_nonneg _).trans (h.bound 0)
  have hint : IntegrableOn (fun a => ρ * Real.exp (-(ρ * a)) * f a) (Ioi 0) := by
    have h1 : IntegrableOn (fun a => Real.exp (-ρ * a)) (Ioi 0) := integrableOn_exp_mul_Ioi (by linarith) 0
    have h2 : IntegrableOn (fun a => B * ρ * Real.exp (-ρ * a)) (Ioi 0) := h1.const_mul _
    refine h2.mono' (((by fun_prop : Measurable (fun a => ρ * Real.exp (-(ρ * a)))).mul h.meas).aestronglyMeasurable) (.of_forall (fun a => ?_))
    rw [Real.norm_eq_abs, abs_mul, abs_of_nonneg (by positivity : 0 ≤ ρ * Real.exp (-(ρ * a))), neg_mul, mul_comm B ρ, mul_assoc, mul_assoc, mul_comm B]
    exact mul_le_mul_of_nonneg_left (mul_le_mul_of_nonneg_left (h.bound a) (Real.exp_pos _).le) hρ.le
  set I := ∫ a, f a ∂expMeasure ρ with hI
  rw [integral_exp hρ] at hI
  have hsplit : I = (∫ a in (0 : ℝ)..H, ρ * Real.exp (-(ρ * a)) * f a) + ∫ a in Ioi H, ρ * Real.exp (-(ρ * a)) * f a := by
    rw [hI, intervalIntegral.integral_of_le hH.le, ← setIntegral_union (Ioc_disjoint_Ioi le_rfl) measurableSet_Ioi (hint.mono_set Ioc_subset_Ioi_self)
      (hint.mono_set (Ioi_subset_Ioi hH.le)), Ioc_union_Ioi_eq_Ioi hH.le]
  have htail : ∫ a in Ioi H, ρ * Real.exp (-(ρ * a)) * f a = Real.exp (-(ρ * H)) * I := by
    have := (measurePreserving_add_right volume H).setIntegral_preimage_emb (measurableEmbedding_addRight H) (fun a => ρ * Real.exp (-(ρ * a)) * f a) (Ioi H)
    rw [preimage_add_const_Ioi, sub_self] at this
    rw [← this, hI, ← integral_const_mul]
    refine setIntegral_congr_fun measurableSet_Ioi (fun a _ => ?_)
    simp only [h.periodic a]
    rw [mul_add, neg_add, Real.exp_add]
    ring
  have hfirst : ∫ a in (0 : ℝ)..H, ρ * Real.exp (-(ρ * a)) * f a = ∫ a in (0 : ℝ)..H, ρ * (Real.exp (-(ρ * a)) - 1) * f a := by
    have e : ∀ a, ρ * (Real.exp (-(ρ * a)) - 1) * f a = ρ * Real.exp (-(ρ * a)) * f a - ρ * f a := fun a => by ring
    simp only [e]
    rw [intervalIntegral.integral_sub, intervalIntegral.integral_const_mul, h.mean, mul_zero, sub_zero]
    · exact (intervalIntegrable_iff_integrableOn_Ioc_of_le hH.le).2 (hint.mono_set Ioc_subset_Ioi_self)
    · exact (h.intervalIntegrable 0 H).const_mul ρ
  have hE : Real.exp (-(ρ * H)) < 1 := by rw [Real.exp_lt_one_iff]; have := mul_pos hρ hH; linarith
  have hbound : |∫ a in (0 : ℝ)..H, ρ * (Real.exp (-(ρ * a)) - 1) * f a| ≤ ρ * (1 - Real.exp (-(ρ * H))) * B * |H - 0| := by
    rw [← Real.norm_eq_abs]
    refine intervalIntegral.norm_integral_le_of_norm_le_const (fun a ha => ?_)
    rw [uIoc_of_le hH.le] at ha
    have h1 : Real.exp (-(ρ * H)) ≤ Real.exp (-(ρ * a)) := Real.exp_le_exp.2 (by have := mul_le_mul_of_nonneg_left ha.2 hρ.le; linarith)
    have h2 : Real.exp (-(ρ * a)) ≤ 1 := Real.exp_le_one_iff.2 (by have := mul_pos hρ ha.1; linarith)
    rw [Real.norm_eq_abs, abs_mul, abs_mul, abs_of_pos hρ, abs_of_nonpos (by linarith)]
    refine mul_le_mul (mul_le_mul_of_nonneg_left (by linarith) hρ.le) (h.bound a) (abs_nonneg _) ?_
    exact mul_nonneg hρ.le (by linarith)
  rw [sub_zero, abs_of_pos hH, ← hfirst] at hbound
  rw [htail] at hsplit
  have e : (1 - Real.exp (-(ρ * H))) * I = ∫ a in (0 : ℝ)..H, ρ * Real.exp (-(ρ * a)) * f a := by linarith
  rw [← e, abs_mul, abs_of_pos (by linarith : 0 < 1 - Real.exp (-(ρ * H)))] at hbound
  have : (1 - Real.exp (-(ρ * H))) * |I| ≤ (1 - Real.exp (-(ρ * H))) * (ρ * H * B) := by linarith
  exact le_of_mul_le_mul_left this (by linarith)

/-- The function after an exponential time. -/
def later (ρ : ℝ) (f : ℝ → ℝ) (t : ℝ) : ℝ := ∫ a, f (t + a) ∂expMeasure ρ

theorem Wave.later (h : Wave H B f) (hH : 0 < H) (hρ : 0 < ρ) : Wave H (ρ * H * B) (later ρ f) := by
  have hp := isProbabilityMeasure_expMeasure hρ
  have hm : Measurable (fun p : ℝ × ℝ => f (p.1 + p.2)) := h.meas.comp measurable_add
  refine ⟨?_, fun t => ?_, fun t => (h.shift t).small hH hρ, ?_⟩
  · exact (hm.stronglyMeasurable.integral_prod_right (ν := expMeasure ρ)).measurable
  · unfold Smoothing.later
    have : ∀ a, f (t + H + a) = f (t + a) := fun a => by rw [add_right_comm]; exact h.periodic _
    simp only [this]
  · unfold Smoothing.later
    rw [intervalIntegral.integral_of_le hH.le]
    have hfin : IsFiniteMeasure (volume.restrict (Ioc 0 H)) := ⟨by simp⟩
    rw [integral_integral_swap]
    · have e : ∀ a, ∫ t in Ioc 0 H, f (t + a) = 0 := by
        intro a
        rw [← intervalIntegral.integral_of_le hH.le]
        have := (h.shift a).mean
        simpa only [add_comm a] using this
      simp only [e, integral_zero]
    · exact (integrable_const B).mono' hm.aestronglyMeasurable (.of_forall (fun t => by rw [Real.norm_eq_abs]; exact h.bound _))

/-! ## The rounding error -/

theorem rintR_add_two (x : ℝ) : rintR (x + 2) = rintR x + 2 := by
  unfold rintR
  have e : ⌊x + 2⌋ = ⌊x⌋ + 2 := by exact_mod_cast Int.floor_add_intCast x 2
  rw [e]
  have e2 : x + 2 - ((⌊x⌋ + 2 : ℤ) : ℝ) = x - ⌊x⌋ := by push_cast; ring
  rw [e2]
  have e3 : (⌊x⌋ + 2) % 2 = ⌊x⌋ % 2 := by omega
  split_ifs <;> omega

theorem rintR_neg (x : ℝ) : rintR (-x) = -rintR x := by
  have h0 := Int.floor_le x
  have h1 := Int.lt_floor_add_one x
  by_cases hx : x = ⌊x⌋
  · have e : ⌊-x⌋ = -⌊x⌋ := by
      rw [Int.floor_eq_iff]
      push_cast
      constructor <;> linarith
    unfold rintR
    rw [e, if_pos (by push_cast; linarith), if_pos (by linarith)]
  · have h2 : (⌊x⌋ : ℝ) < x := lt_of_le_of_ne h0 (Ne.symm hx)
    have e : ⌊-x⌋ = -⌊x⌋ - 1 := by
      rw [Int.floor_eq_iff]
      push_cast
      constructor <;> linarith
    unfold rintR
    rw [e]
    push_cast
    rcases lt_trichotomy (x - ⌊x⌋) (1 / 2) with h | h | h
    · rw [if_neg (by linarith), if_pos (by linarith), if_pos h]; ring
    · rw [if_neg (by linarith), if_neg (by linarith), if_neg (show ¬ x - ⌊x⌋ < 1 / 2 by linarith), if_neg (show ¬ 1 / 2 < x - ⌊x⌋ by linarith)]
      split_ifs <;> omega
    · rw [if_pos (by linarith), if_neg (by linarith), if_pos h]; ring

theorem roundError_eq (t : ℝ) : roundError t = (rintR (t * 10000) : ℝ) / 10000 - t := by
  unfold roundError round4R
  push_cast
  rfl

theorem roundError_wave : Wave (1 / 5000) (1 / 20000) roundError where
  meas := measurable_roundError
  periodic t := by
    rw [roundError_eq, roundError_eq]
    have : (t + 1 / 5000) * 10000 = t * 10000 + 2 := by ring
    rw [this, rintR_add_two]
    push_cast
    ring
  bound := abs_roundError_le
  mean := by
    have hper : Function.Periodic roundError (1 / 5000) := by
      intro t
      rw [roundError_eq, roundError_eq]
      have : (t + 1 / 5000) * 10000 = t * 10000 + 2 := by ring
      rw [this, rintR_add_two]
      push_cast
      ring
    have hodd : ∀ t, roundError (-t) = -roundError t := by
      intro t
      rw [roundError_eq, roundError_eq, neg_mul, rintR_neg]
      push_cast
      ring
    have h1 := hper.intervalIntegral_add_eq (-(1 / 10000)) 0
    rw [zero_add] at h1
    rw [← h1]
    have e : (-(1 / 10000) + 1 / 5000 : ℝ) = 1 / 10000 := by norm_num
    rw [e]
    have h2 := intervalIntegral.integral_comp_neg (a := -(1 / 10000)) (b := 1 / 10000) roundError
    simp only [hodd, intervalIntegral.integral_neg, neg_neg] at h2
    linarith

end

end PyCTBN.Smoothing
