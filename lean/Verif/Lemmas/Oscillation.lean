import Verif.Lemmas.PathErgodic
import Mathlib.MeasureTheory.Integral.IntervalIntegral.Periodic
import Mathlib.MeasureTheory.Measure.Sub
import Mathlib.MeasureTheory.Integral.Prod

/-!
# Rounding errors along the path of a jump process

The rounding error of the current time is a periodic function of it.  An exponential holding time makes it forget where it was, so the sums of its
changes, over the visits of some joint states, have bounded means.
-/

open MeasureTheory ProbabilityTheory Set
open scoped ENNReal

namespace PyCTBN.JumpPaths
open Spec

noncomputable section

/-- A bounded measurable function with period `p` and mean 0. -/
structure Osc (p C : ℝ) (F : ℝ → ℝ) : Prop where
  meas : Measurable F
  per : Function.Periodic F p
  bound : ∀ t, |F t| ≤ C
  mean : ∫ t in (0 : ℝ)..p, F t = 0

theorem bounded_integrable {μ : Measure ℝ} [IsFiniteMeasure μ] {F : ℝ → ℝ} (hm : Measurable F) {C : ℝ} (hb : ∀ t, |F t| ≤ C) : Integrable F μ :=
  (integrable_const C).mono' hm.aestronglyMeasurable (.of_forall (fun t => by rw [Real.norm_eq_abs]; exact hb t))

theorem bounded_intervalIntegrable {F : ℝ → ℝ} (hm : Measurable F) {C : ℝ} (hb : ∀ t, |F t| ≤ C) (a b : ℝ) : IntervalIntegrable F volume a b :=
  ⟨bounded_integrable hm hb, bounded_integrable hm hb⟩

/-- The exponential density is bounded below on a period. -/
theorem exp_minorant {R p : ℝ} (hR : 0 < R) :
    ENNReal.ofReal (R * Real.exp (-(R * p))) • volume.restrict (Ioc 0 p) ≤ expMeasure R := by
  have e : ENNReal.ofReal (R * Real.exp (-(R * p))) • volume.restrict (Ioc 0 p)
      = volume.withDensity ((Ioc 0 p).indicator (fun _ => ENNReal.ofReal (R * Real.exp (-(R * p))))) := by
    rw [withDensity_indicator measurableSet_Ioc, withDensity_const]
  have e2 : expMeasure R = volume.withDensity (exponentialPDF R) := rfl
  rw [e, e2]
  refine withDensity_mono (.of_forall (fun x => ?_))
  by_cases hx : x ∈ Ioc 0 p
  · rw [indicator_of_mem hx, exponentialPDF_of_nonneg hx.1.le]
    refine ENNReal.ofReal_le_ofReal (mul_le_mul_of_nonneg_left (Real.exp_le_exp.2 ?_) hR.le)
    nlinarith [hx.2]
  · rw [indicator_of_notMem hx]; exact zero_le

/-- The mean of the oscillation after an exponential time. -/
def blur (R : ℝ) (F : ℝ → ℝ) (t : ℝ) : ℝ := ∫ a, F (t + a) ∂expMeasure R

section
variable {p C R : ℝ} {F : ℝ → ℝ} (hp : 0 < p) (hR : 0 < R) (hF : Osc p C F)
include hp hR hF

theorem blur_bound (t : ℝ) : |blur R F t| ≤ (1 - R * Real.exp (-(R * p)) * p) * C := by
  have hP := isProbabilityMeasure_expMeasure hR
  set m := R * Real.exp (-(R * p)) with hm
  have hm0 : 0 ≤ m := by positivity
  set ν : Measure ℝ := ENNReal.ofReal m • volume.restrict (Ioc 0 p) with hν
  have hle : ν ≤ expMeasure R := exp_minorant hR
  have hfin : IsFiniteMeasure ν := isFiniteMeasure_of_le _ hle
  have hsub := Measure.sub_add_cancel_of_le hle
  have hfin' : IsFiniteMeasure (expMeasure R - ν) := isFiniteMeasure_of_le (expMeasure R) (by
    conv_rhs => rw [← hsub]
    exact Measure.le_add_right le_rfl)
  have hmeas : Measurable (fun a => F (t + a)) := hF.meas.comp (measurable_const_add t)
  have hb : ∀ a, |F (t + a)| ≤ C := fun a => hF.bound _
  have hz : ∫ a, F (t + a) ∂ν = 0 := by
    rw [hν, integral_smul_measure, ← intervalIntegral.integral_of_le hp.le, intervalIntegral.integral_comp_add_left]
    rw [add_zero, hF.per.intervalIntegral_add_eq t 0, zero_add, hF.mean, smul_zero]
  have hmass : (expMeasure R - ν).real univ = 1 - m * p := by
    have h1 : (expMeasure R - ν).real univ + ν.real univ = 1 := by
      have : (expMeasure R - ν + ν).real univ = 1 := by rw [hsub]; exact probReal_univ
      rwa [measureReal_add_apply] at this
    have h2 : ν.real univ = m * p := by
      rw [hν, measureReal_def, Measure.smul_apply, Measure.restrict_apply_univ, Real.volume_Ioc, smul_eq_mul, ENNReal.toReal_mul,
        ENNReal.toReal_ofReal hm0, ENNReal.toReal_ofReal (by linarith), sub_zero]
    linarith
  have hC0 : 0 ≤ C := (abs_nonneg _).trans (hF.bound 0)
  have e : blur R F t = ∫ a, F (t + a) ∂(expMeasure R - ν) := by
    unfold blur
    conv_lhs => rw [← hsub]
    rw [integral_add_measure (bounded_integrable hmeas hb) (bounded_integrable hmeas hb), hz, add_zero]
  rw [e]
  have := norm_integral_le_of_norm_le_const (μ := expMeasure R - ν) (f := fun a => F (t + a)) (C := C) (.of_forall (fun a => by rw [Real.norm_eq_abs]; exact hb a))
  rw [Real.norm_eq_abs, hmass] at this
  linarith

theorem blur_osc : Osc p ((1 - R * Real.exp (-(R * p)) * p) * C) (blur R F) where
  meas := by
    have hP := isProbabilityMeasure_expMeasure hR
    have : StronglyMeasurable (fun q : ℝ × ℝ => F (q.1 + q.2)) := (hF.meas.comp (measurable_fst.add measurable_snd)).stronglyMeasurable
    exact this.integral_prod_right'.measurable
  per := by
    intro t
    unfold blur
    refine integral_congr_ae (.of_forall (fun a => ?_))
    show F (t + p + a) = F (t + a)
    rw [show t + p + a = t + a + p by ring]
    exact hF.per _
  bound := blur_bound hp hR hF
  mean := by
    have hP := isProbabilityMeasure_expMeasure hR
    have hfin : IsFiniteMeasure (volume.restrict (Ioc 0 p)) := inferInstance
    have hm : Measurable (fun q : ℝ × ℝ => F (q.1 + q.2)) := hF.meas.comp (measurable_fst.add measurable_snd)
    rw [intervalIntegral.integral_of_le hp.le]
    unfold blur
    rw [integral_integral_swap (f := fun t a => F (t + a)) ((integrable_const C).mono' hm.aestronglyMeasurable
      (.of_forall (fun q => by rw [Real.norm_eq_abs]; exact hF.bound _)))]
    have : ∀ a, ∫ t in Ioc 0 p, F (t + a) = 0 := by
      intro a
      rw [← intervalIntegral.integral_of_le hp.le, intervalIntegral.integral_comp_add_right, zero_add, add_comm p a, hF.per.intervalIntegral_add_eq a 0, zero_add, hF.mean]
    simp only [this, integral_zero]

end

theorem Osc.mono {p C C' : ℝ} {F : ℝ → ℝ} (h : Osc p C F) (hC : C ≤ C') : Osc p C' F := ⟨h.meas, h.per, fun t => (h.bound t).trans hC, h.mean⟩

theorem Osc.add {p C C' : ℝ} {F G : ℝ → ℝ} (h : Osc p C F) (h' : Osc p C' G) : Osc p (C + C') (fun t => F t + G t) where
  meas := h.meas.add h'.meas
  per t := by simp only [h.per t, h'.per t]
  bound t := (abs_add_le _ _).trans (add_le_add (h.bound t) (h'.bound t))
  mean := by
    rw [intervalIntegral.integral_add (bounded_intervalIntegrable h.meas h.bound _ _) (bounded_intervalIntegrable h'.meas h'.bound _ _), h.mean, h'.mean, add_zero]

theorem Osc.smul {p C : ℝ} {F : ℝ → ℝ} (h : Osc p C F) (w : ℝ) : Osc p (|w| * C) (fun t => w * F t) where
  meas := h.meas.const_mul w
  per t := by simp only [h.per t]
  bound t := by rw [abs_mul]; exact mul_le_mul_of_nonneg_left (h.bound t) (abs_nonneg w)
  mean := by rw [intervalIntegral.integral_const_mul, h.mean, mul_zero]

theorem Osc.zero (p : ℝ) : Osc p 0 (fun _ => 0) := ⟨measurable_const, fun _ => rfl, fun _ => by simp, by simp⟩

theorem Osc.sum {ι : Type} {p : ℝ} (I : Finset ι) {C : ι → ℝ} {F : ι → ℝ → ℝ} (h : ∀ i ∈ I, Osc p (C i) (F i)) : Osc p (∑ i ∈ I, C i) (fun t => ∑ i ∈ I, F i t) := by
  classical
  induction I using Finset.induction_on with
  | empty => simpa using Osc.zero p
  | insert a I ha ih =>
    simp only [Finset.sum_insert ha]
    exact (h a (by simp)).add (ih (fun i hi => h i (by simp [hi])))

/-! ## Rounding errors -/

section
variable {N : Ctbn} {rate : Rates} (hU : Usable N rate)

/-- The change of the rounding error, counted in some joint states. -/
def errorStep (w : List Nat → ℝ) (φ : ℝ → ℝ) : Increment := fun vals t _ a => w vals * (φ (t + a) - φ t)

theorem tame_errorStep {w : List Nat → ℝ} {K : ℝ} (hK0 : 0 ≤ K) (hK : ∀ vals, N.InRange vals → |w vals| ≤ K) {φ : ℝ → ℝ} {Φ : ℝ} (hφ : Measurable φ)
    (hΦ : ∀ t, |φ t| ≤ Φ) : Tame N (errorStep w φ) (K * (2 * Φ)) where
  nonneg := by have := (abs_nonneg _).trans (hΦ 0); positivity
  meas vals s := ((hφ.comp (measurable_fst.add measurable_snd)).sub (hφ.comp measurable_fst)).const_mul _
  bound vals hr s _ t a := by
    have hΦ0 := (abs_nonneg _).trans (hΦ 0)
    unfold errorStep
    rw [abs_mul]
    have h1 : |φ (t + a) - φ t| ≤ 2 * Φ := (abs_sub _ _).trans (by have := hΦ (t + a); have := hΦ t; linarith)
    calc |w vals| * |φ (t + a) - φ t| ≤ K * (2 * Φ) := mul_le_mul (hK vals hr) h1 (abs_nonneg _) hK0
      _ ≤ K * (2 * Φ) * (1 + |a|) := le_mul_of_one_le_right (by positivity) (by have := abs_nonneg a; linarith)

include hU

/-- The means of the sums of the changes of the rounding error are bounded. -/
theorem errorStep_bounded {w : List Nat → ℝ} {K : ℝ} (hK0 : 0 ≤ K) (hK : ∀ vals, N.InRange vals → |w vals| ≤ K) {p : ℝ} (hp : 0 < p) {φ : ℝ → ℝ} {Φ : ℝ}
    (hφ : Osc p Φ φ) {Rm RM : ℝ} (hRm : 0 < Rm) (hRR : ∀ vals, N.InRange vals → Rm ≤ totalRate N rate vals ∧ totalRate N rate vals ≤ RM) (n : Nat)
    {vals : List Nat} (hr : N.InRange vals) (t : ℝ) :
    |meanTotal N rate (errorStep w φ) n vals t| ≤ K * (2 * Φ) / (Rm * Real.exp (-(RM * p)) * p) := by
  set κ := Rm * Real.exp (-(RM * p)) * p with hκ
  have hκ0 : 0 < κ := by positivity
  have hΦ0 : 0 ≤ Φ := (abs_nonneg _).trans (hφ.bound 0)
  set D := K * (2 * Φ) / κ with hD
  have hD0 : 0 ≤ D := by positivity
  have hDκ : κ * D = K * (2 * Φ) := by rw [hD]; field_simp
  have hκle : ∀ vals, N.InRange vals → κ ≤ totalRate N rate vals * Real.exp (-(totalRate N rate vals * p)) * p := by
    intro vals hr
    obtain ⟨h1, h2⟩ := hRR vals hr
    rw [hκ]
    refine mul_le_mul_of_nonneg_right (mul_le_mul h1 (Real.exp_le_exp.2 ?_) (Real.exp_pos _).le (hRm.le.trans h1)) hp.le
    nlinarith
  have htame := tame_errorStep (N := N) hK0 hK hφ.meas hφ.bound
  have key : ∀ n, ∀ vals, N.InRange vals → Osc p D (meanTotal N rate (errorStep w φ) n vals) := by
    intro n
    induction n with
    | zero =>
      intro vals _
      have : meanTotal N rate (errorStep w φ) 0 vals = fun _ => 0 := funext (fun t => meanTotal_zero t)
      rw [this]
      exact (Osc.zero p).mono hD0
    | succ n ih =>
      intro vals hr
      have hR := hU.pos vals hr
      have hP := isProbabilityMeasure_expMeasure hR
      have e : meanTotal N rate (errorStep w φ) (n + 1) vals = fun t => (w vals * blur (totalRate N rate vals) φ t + -w vals * φ t)
          + ∑ s ∈ steps N, stepProb N rate vals s * blur (totalRate N rate vals) (meanTotal N rate (errorStep w φ) n (after vals s)) t := by
        funext t
        rw [meanTotal_succ hU htame n hr]
        have e1 : ∀ s ∈ steps N, stepProb N rate vals s *
            ∫ a, (errorStep w φ vals t s a + meanTotal N rate (errorStep w φ) n (after vals s) (t + a)) ∂expMeasure (totalRate N rate vals)
            = stepProb N rate vals s * (w vals * blur (totalRate N rate vals) φ t + -w vals * φ t)
              + stepProb N rate vals s * blur (totalRate N rate vals) (meanTotal N rate (errorStep w φ) n (after vals s)) t := by
          intro s hs
          have ho := ih _ (hU.closed vals hr s hs)
          have i1 : Integrable (fun a => φ (t + a)) (expMeasure (totalRate N rate vals)) := bounded_integrable (hφ.meas.comp (measurable_const_add t)) (fun a => hφ.bound _)
          have i2 : Integrable (fun a => meanTotal N rate (errorStep w φ) n (after vals s) (t + a)) (expMeasure (totalRate N rate vals)) :=
            bounded_integrable (ho.meas.comp (measurable_const_add t)) (fun a => ho.bound _)
          have i3 : Integrable (fun a => errorStep w φ vals t s a) (expMeasure (totalRate N rate vals)) := (i1.sub (integrable_const (φ t))).const_mul (w vals)
          rw [integral_add i3 i2, mul_add]
          congr 2
          show ∫ a, w vals * (φ (t + a) - φ t) ∂_ = _
          rw [integral_const_mul, integral_sub i1 (integrable_const _), integral_const]
          simp only [probReal_univ, one_smul]
          unfold blur
          ring
        rw [Finset.sum_congr rfl e1, Finset.sum_add_distrib, ← Finset.sum_mul, sum_stepProb hU hr, one_mul]
      rw [e]
      have h1 := ((blur_osc hp hR hφ).smul (w vals)).add (hφ.smul (-w vals))
      have h2 := Osc.sum (steps N) (fun s hs => (blur_osc hp hR (ih _ (hU.closed vals hr s hs))).smul (stepProb N rate vals s))
      refine (h1.add h2).mono ?_
      have h3 := hκle vals hr
      set κ' := totalRate N rate vals * Real.exp (-(totalRate N rate vals * p)) * p
      have h4 : ∑ s ∈ steps N, |stepProb N rate vals s| * ((1 - κ') * D) = (1 - κ') * D := by
        rw [Finset.sum_congr rfl (fun s hs => by rw [abs_of_nonneg (stepProb_nonneg hU hr hs)]), ← Finset.sum_mul, sum_stepProb hU hr, one_mul]
      rw [h4, abs_neg]
      have h5 : (1 - κ') * D ≤ D - K * (2 * Φ) := by rw [← hDκ]; nlinarith
      have h6 : |w vals| * ((1 - κ') * Φ) ≤ K * Φ := by
        refine mul_le_mul (hK vals hr) ?_ ?_ hK0
        · nlinarith [hκ0.le.trans h3]
        · exact (abs_nonneg _).trans ((blur_osc hp hR hφ).bound 0)
      have h7 : |w vals| * Φ ≤ K * Φ := mul_le_mul_of_nonneg_right (hK vals hr) hΦ0
      linarith
  exact (key n vals hr).bound t

end

end

end PyCTBN.JumpPaths
