import Mathlib.Probability.Distributions.Exponential
import Mathlib.Probability.ProductMeasure

/-!
# Competing exponential clocks

Facts of probability theory about independent exponential clocks: scaling, lack of memory, which of several clocks rings first, and the
independence of the remaining times.
-/

open MeasureTheory ProbabilityTheory Set
open scoped ENNReal

namespace PyCTBN.Clocks

/-! ## One clock -/

theorem exp_Iic {ρ : ℝ} (h : 0 < ρ) (a : ℝ) : expMeasure ρ (Iic a) = ENNReal.ofReal (if 0 ≤ a then 1 - Real.exp (-(ρ * a)) else 0) := by
  have := isProbabilityMeasure_expMeasure h
  rw [← ofReal_cdf, cdf_expMeasure_eq h]

theorem exp_Ioi {ρ : ℝ} (h : 0 < ρ) (a : ℝ) : expMeasure ρ (Ioi a) = ENNReal.ofReal (Real.exp (-(ρ * max 0 a))) := by
  have hp := isProbabilityMeasure_expMeasure h
  rw [← compl_Iic, prob_compl_eq_one_sub measurableSet_Iic, exp_Iic h]
  split_ifs with ha
  · rw [max_eq_right ha, ← ENNReal.ofReal_one, ← ENNReal.ofReal_sub]
    · congr 1; ring
    · have : Real.exp (-(ρ * a)) ≤ 1 := Real.exp_le_one_iff.2 (by nlinarith)
      linarith
  · rw [max_eq_left (by linarith)]; simp

instance exp_noAtoms (ρ : ℝ) : NullSingletonClass (expMeasure ρ) := by
  unfold expMeasure gammaMeasure
  infer_instance

theorem exp_Ici {ρ : ℝ} (h : 0 < ρ) (a : ℝ) : expMeasure ρ (Ici a) = ENNReal.ofReal (Real.exp (-(ρ * max 0 a))) := by
  rw [← exp_Ioi h a]
  exact (measure_congr Ioi_ae_eq_Ici).symm

/-- A multiple of an exponential clock. -/
theorem exp_scale {q : ℝ} (h : 0 < q) : (expMeasure 1).map (fun x => q * x) = expMeasure (1 / q) := by
  have h1 := isProbabilityMeasure_expMeasure (r := 1) one_pos
  have h2 := isProbabilityMeasure_expMeasure (r := 1 / q) (by positivity)
  have h3 : IsProbabilityMeasure ((expMeasure 1).map (fun x => q * x)) := Measure.isProbabilityMeasure_map (by fun_prop)
  refine Measure.ext_of_Ici _ _ (fun a => ?_)
  rw [Measure.map_apply (by fun_prop) measurableSet_Ici]
  have : (fun x => q * x) ⁻¹' Ici a = Ici (a / q) := by
    ext x; simp only [mem_preimage, mem_Ici]; rw [div_le_iff₀ h, mul_comm]
  rw [this, exp_Ici one_pos, exp_Ici (by positivity)]
  congr 2
  rcases le_total 0 a with ha | ha
  · rw [max_eq_right ha, max_eq_right (by positivity)]; field_simp
  · rw [max_eq_left ha, max_eq_left (div_nonpos_of_nonpos_of_nonneg ha h.le)]; simp

/-- Lack of memory: the remaining time of a clock that has not rung. -/
theorem exp_memoryless {ρ : ℝ} (h : 0 < ρ) {d : ℝ} (hd : 0 ≤ d) (b : Prop) [Decidable b] :
    ((expMeasure ρ).restrict (if b then Ioi d else Ici d)).map (fun x => x - d) = ENNReal.ofReal (Real.exp (-(ρ * d))) • expMeasure ρ := by
  have h1 := isProbabilityMeasure_expMeasure h
  have hr : (expMeasure ρ).restrict (if b then Ioi d else Ici d) = (expMeasure ρ).restrict (Ici d) := by
    split_ifs
    · exact Measure.restrict_congr_set Ioi_ae_eq_Ici
    · rfl
  rw [hr]
  have : IsFiniteMeasure (ENNReal.ofReal (Real.exp (-(ρ * d))) • expMeasure ρ) := ⟨by
    rw [Measure.smul_apply, smul_eq_mul, measure_univ, mul_one]; exact ENNReal.ofReal_lt_top⟩
  refine Measure.ext_of_Ici _ _ (fun a => ?_)
  rw [Measure.map_apply (by fun_prop) measurableSet_Ici]
  have e : (fun x => x - d) ⁻¹' Ici a = Ici (a + d) := by
    ext x; simp only [mem_preimage, mem_Ici]; exact le_sub_iff_add_le
  rw [e, Measure.restrict_apply measurableSet_Ici, Ici_inter_Ici, Measure.smul_apply, smul_eq_mul, exp_Ici h, exp_Ici h,
    ← ENNReal.ofReal_mul (Real.exp_nonneg _), ← Real.exp_add]
  congr 2
  rcases le_total 0 a with ha | ha
  · have e1 : max (a + d) d = a + d := max_eq_left (by linarith)
    have e2 : max 0 (a + d) = a + d := max_eq_right (by linarith)
    rw [max_eq_right ha, e1, e2]; ring
  · have e1 : max (a + d) d = d := max_eq_right (by linarith)
    rw [max_eq_left ha, e1, max_eq_right hd]; ring

/-- The chance that a clock rings after `a`, weighted with an exponential discount. -/
theorem exp_discount {ρ S : ℝ} (h : 0 < ρ) (hS : 0 ≤ S) {a : ℝ} (ha : 0 ≤ a) :
    ∫⁻ d in Ioi a, ENNReal.ofReal (Real.exp (-(S * d))) ∂(expMeasure ρ) = ENNReal.ofReal (ρ / (ρ + S) * Real.exp (-((ρ + S) * a))) := by
  have hR : 0 < ρ + S := by linarith
  have h1 : ∫⁻ d in Ioi a, ENNReal.ofReal (Real.exp (-(S * d))) ∂(expMeasure ρ)
      = ∫⁻ d in Ioi a, exponentialPDF ρ d * ENNReal.ofReal (Real.exp (-(S * d))) := by
    have : expMeasure ρ = volume.withDensity (exponentialPDF ρ) := rfl
    have hm : Measurable (exponentialPDF ρ) := (measurable_exponentialPDFReal ρ).ennreal_ofReal
    rw [this, restrict_withDensity measurableSet_Ioi, lintegral_withDensity_eq_lintegral_mul _ hm (by fun_prop)]
    rfl
  have h2 : ∫⁻ d in Ioi a, exponentialPDF ρ d * ENNReal.ofReal (Real.exp (-(S * d)))
      = ∫⁻ d in Ioi a, ENNReal.ofReal (ρ / (ρ + S)) * exponentialPDF (ρ + S) d := by
    refine setLIntegral_congr_fun measurableSet_Ioi (fun d hd => ?_)
    have hd0 : 0 ≤ d := ha.trans (le_of_lt hd)
    simp only [exponentialPDF_of_nonneg hd0]
    rw [← ENNReal.ofReal_mul (by positivity), ← ENNReal.ofReal_mul (by positivity)]
    congr 1
    rw [mul_assoc, ← Real.exp_add, ← mul_assoc, div_mul_cancel₀ _ hR.ne']
    congr 2; ring
  have hm : Measurable (exponentialPDF (ρ + S)) := (measurable_exponentialPDFReal _).ennreal_ofReal
  rw [h1, h2, lintegral_const_mul _ hm]
  have h3 : ∫⁻ d in Ioi a, exponentialPDF (ρ + S) d = expMeasure (ρ + S) (Ioi a) :=
    (withDensity_apply _ measurableSet_Ioi).symm
  rw [h3, exp_Ioi hR, max_eq_right ha, ← ENNReal.ofReal_mul (by positivity)]

/-! ## Several clocks -/

section
variable {ι : Type*} [Fintype ι]

/-- Keeping some coordinates and drawing the others afresh. -/
theorem lintegral_mix (μ ν : ι → Measure ℝ) [∀ i, IsProbabilityMeasure (μ i)] [∀ i, IsProbabilityMeasure (ν i)] (D : ι → Prop) [DecidablePred D]
    (f : ι → ℝ → ℝ) (hf : ∀ i, Measurable (f i)) (H : (ι → ℝ) → ℝ≥0∞) (hH : Measurable H) :
    ∫⁻ r, ∫⁻ e, H (fun w => if D w then r w else f w (e w)) ∂Measure.pi ν ∂Measure.pi μ
      = ∫⁻ x, H x ∂Measure.pi (fun w => if D w then μ w else (ν w).map (f w)) := by
  have hpm : ∀ w, IsProbabilityMeasure (if D w then μ w else (ν w).map (f w)) := by
    intro w
    split_ifs
    · infer_instance
    · exact Measure.isProbabilityMeasure_map (hf w).aemeasurable
  let g : (ι → ℝ) × (ι → ℝ) → (ι → ℝ) := fun p w => if D w then p.1 w else f w (p.2 w)
  have hg : Measurable g := by
    refine measurable_pi_lambda _ (fun w => ?_)
    by_cases hw : D w
    · simp only [g, hw, if_true]; fun_prop
    · simp only [g, hw, if_false]; exact (hf w).comp (by fun_prop)
  have hpi : Measure.pi (fun w => if D w then μ w else (ν w).map (f w)) = ((Measure.pi μ).prod (Measure.pi ν)).map g := by
    refine Measure.pi_eq (fun s hs => ?_)
    rw [Measure.map_apply hg (MeasurableSet.univ_pi hs)]
    have : g ⁻¹' pi univ s = (pi univ (fun w => if D w then s w else univ)) ×ˢ (pi univ (fun w => if D w then univ else f w ⁻¹' s w)) := by
      ext p
      simp only [mem_preimage, mem_pi, mem_univ, true_implies, mem_prod, g]
      constructor
      · intro h
        refine ⟨fun w => ?_, fun w => ?_⟩
        · have := h w; split_ifs at this ⊢ <;> trivial
        · have := h w; split_ifs at this ⊢ <;> trivial
      · rintro ⟨h1, h2⟩ w
        have := h1 w; have := h2 w
        by_cases hw : D w <;> simp_all
    rw [this, Measure.prod_prod, Measure.pi_pi, Measure.pi_pi, ← Finset.prod_mul_distrib]
    refine Finset.prod_congr rfl (fun w _ => ?_)
    by_cases hw : D w
    · simp [hw]
    · simp [hw, Measure.map_apply (hf w) (hs w)]
  rw [hpi, lintegral_map hH hg]
  exact (lintegral_prod (fun p => H (g p)) (hH.comp hg).aemeasurable).symm

/-- An integrand that looks only at some coordinates. -/
theorem lintegral_agree (μ ν : ι → Measure ℝ) [∀ i, IsProbabilityMeasure (μ i)] [∀ i, IsProbabilityMeasure (ν i)] (D : ι → Prop) [DecidablePred D]
    (hD : ∀ w, D w → μ w = ν w) (H : (ι → ℝ) → ℝ≥0∞) (hH : Measurable H) (hdep : ∀ x y : ι → ℝ, (∀ w, D w → x w = y w) → H x = H y) :
    ∫⁻ x, H x ∂Measure.pi μ = ∫⁻ x, H x ∂Measure.pi ν := by
  have h := lintegral_mix μ ν D (fun _ x => x) (fun _ => measurable_id) H hH
  have e1 : (fun w => if D w then μ w else (ν w).map (fun x => x)) = ν := by
    funext w
    split_ifs with hw
    · exact hD w hw
    · exact Measure.map_id
  rw [e1] at h
  rw [← h]
  refine lintegral_congr (fun r => ?_)
  have : ∀ e : ι → ℝ, H (fun w => if D w then r w else e w) = H r := fun e => hdep _ _ (fun w hw => by simp [hw])
  simp only [this, lintegral_const, measure_univ, mul_one]

theorem pi_smul (c : ι → ℝ≥0∞) (hc : ∀ i, c i ≠ ∞) (μ : ι → Measure ℝ) [∀ i, IsProbabilityMeasure (μ i)] :
    Measure.pi (fun w => c w • μ w) = (∏ w, c w) • Measure.pi μ := by
  have : ∀ w, IsFiniteMeasure (c w • μ w) := fun w => ⟨by
    rw [Measure.smul_apply, smul_eq_mul, measure_univ, mul_one]; exact (hc w).lt_top⟩
  refine Measure.pi_eq (fun s _ => ?_)
  rw [Measure.smul_apply, Measure.pi_pi, smul_eq_mul, ← Finset.prod_mul_distrib]
  rfl

variable [DecidableEq ι]

/-- Competing clocks: the clock `k` rings first, and after `a`, with probability `ρ_k / R · exp (-R a)`, `R` the sum of the rates; and then the
remaining times of the other clocks are distributed as they were at the beginning. -/
theorem competing (ρ : ι → ℝ) (hρ : ∀ i, 0 < ρ i) (k : ι) {a : ℝ} (ha : 0 ≤ a) (b : ι → Prop) [DecidablePred b] (g : (ι → ℝ) → ℝ≥0∞)
    (hg : Measurable g) (hk : ∀ x y : ι → ℝ, (∀ w, w ≠ k → x w = y w) → g x = g y) :
    ∫⁻ x, (if (∀ w, w ≠ k → if b w then x k < x w else x k ≤ x w) ∧ a < x k then g (fun w => x w - x k) else 0)
        ∂Measure.pi (fun w => expMeasure (ρ w))
      = ENNReal.ofReal (ρ k / (∑ w, ρ w) * Real.exp (-((∑ w, ρ w) * a))) * ∫⁻ x, g x ∂Measure.pi (fun w => expMeasure (ρ w)) := by
  have hp : ∀ w, IsProbabilityMeasure (expMeasure (ρ w)) := fun w => isProbabilityMeasure_expMeasure (hρ w)
  set F : (ι → ℝ) → ℝ≥0∞ := fun x => if (∀ w, w ≠ k → if b w then x k < x w else x k ≤ x w) ∧ a < x k then g (fun w => x w - x k) else 0 with hF
  have hms : MeasurableSet {x : ι → ℝ | (∀ w, w ≠ k → if b w then x k < x w else x k ≤ x w) ∧ a < x k} := by
    refine MeasurableSet.inter ?_ (measurableSet_lt measurable_const (measurable_pi_apply k))
    have : {x : ι → ℝ | ∀ w, w ≠ k → if b w then x k < x w else x k ≤ x w} = ⋂ w, {x : ι → ℝ | w ≠ k → if b w then x k < x w else x k ≤ x w} := by
      ext; simp
    show MeasurableSet {x : ι → ℝ | ∀ w, w ≠ k → if b w then x k < x w else x k ≤ x w}
    rw [this]
    refine MeasurableSet.iInter (fun w => ?_)
    by_cases hw : w ≠ k
    · by_cases hb : b w
      · simp only [hw, hb, if_true, ne_eq, not_false_eq_true, true_implies]
        exact measurableSet_lt (measurable_pi_apply k) (measurable_pi_apply w)
      · simp only [hw, hb, if_false, ne_eq, not_false_eq_true, true_implies]
        exact measurableSet_le (measurable_pi_apply k) (measurable_pi_apply w)
    · simp [hw]
  have hFm : Measurable F := by
    refine Measurable.ite hms (hg.comp (measurable_pi_lambda _ (fun w => ?_))) measurable_const
    fun_prop
  -- draw the clock `k` separately
  have h1 := lintegral_mix (fun w => expMeasure (ρ w)) (fun w => expMeasure (ρ w)) (fun w => w = k) (fun _ x => x) (fun _ => measurable_id) F hFm
  have e1 : (fun w => if w = k then expMeasure (ρ w) else (expMeasure (ρ w)).map (fun x => x)) = fun w => expMeasure (ρ w) := by
    funext w
    split_ifs with hw
    · rfl
    · exact Measure.map_id
  rw [e1] at h1
  rw [← h1]
  -- the inner integral
  have h2 : ∀ r : ι → ℝ, ∫⁻ e, F (fun w => if w = k then r w else e w) ∂Measure.pi (fun w => expMeasure (ρ w))
      = (Ioi a).indicator (fun d => ENNReal.ofReal (Real.exp (-((∑ w ∈ Finset.univ.erase k, ρ w) * d)))) (r k)
        * ∫⁻ x, g x ∂Measure.pi (fun w => expMeasure (ρ w)) := by
    intro r
    by_cases hra : a < r k
    · have hd : 0 ≤ r k := ha.trans hra.le
      rw [indicator_of_mem (by exact hra)]
      set s : ι → Set ℝ := fun w => if w = k then univ else if b w then Ioi (r k) else Ici (r k) with hs
      have hsm : ∀ w, MeasurableSet (s w) := by
        intro w; simp only [hs]; split_ifs
        · exact MeasurableSet.univ
        · exact measurableSet_Ioi
        · exact measurableSet_Ici
      set f : ι → ℝ → ℝ := fun w x => if w = k then x else x - r k with hf
      have hfm : ∀ w, Measurable (f w) := by
        intro w; simp only [hf]; split_ifs
        · exact measurable_id
        · fun_prop
      have e2 : ∀ e : ι → ℝ, F (fun w => if w = k then r w else e w) = (pi univ s).indicator (fun e => g (fun w => f w (e w))) e := by
        intro e
        have hiff : ((∀ w, w ≠ k → if b w then r k < e w else r k ≤ e w)) ↔ e ∈ pi univ s := by
          simp only [mem_pi, mem_univ, true_implies, hs]
          refine forall_congr' (fun w => ?_)
          by_cases hw : w = k
          · simp [hw]
          · by_cases hb : b w <;> simp [hw, hb]
        by_cases hin : e ∈ pi univ s
        · rw [indicator_of_mem hin]
          simp only [hF, if_true]
          rw [if_pos ⟨fun w hw => by simpa [hw] using hiff.2 hin w hw, hra⟩]
          refine hk _ _ (fun w hw => ?_)
          simp [hw, hf]
        · rw [indicator_of_notMem hin]
          simp only [hF, if_true]
          rw [if_neg]
          rintro ⟨h, -⟩
          exact hin (hiff.1 (fun w hw => by simpa [hw] using h w hw))
      rw [lintegral_congr e2, lintegral_indicator (MeasurableSet.univ_pi hsm)]
      have e3 := Measure.restrict_pi_pi (μ := fun w => expMeasure (ρ w)) s
      have hmap : ∀ w, ((expMeasure (ρ w)).restrict (s w)).map (f w)
          = (if w = k then 1 else ENNReal.ofReal (Real.exp (-(ρ w * r k)))) • expMeasure (ρ w) := by
        intro w
        by_cases hw : w = k
        · have : f w = id := by funext x; simp [hf, hw]
          rw [this]
          simp [hs, hw]
        · have h := exp_memoryless (hρ w) hd (b w)
          simp only [hs, hf, hw, if_false]
          exact h
      have hfin : ∀ w, IsFiniteMeasure (((expMeasure (ρ w)).restrict (s w)).map (f w)) := fun w => inferInstance
      have e4 := Measure.pi_map_pi (μ := fun w => (expMeasure (ρ w)).restrict (s w)) (f := f) (fun w => (hfm w).aemeasurable)
      have hfm' : Measurable (fun (x : ι → ℝ) w => f w (x w)) := measurable_pi_lambda _ (fun w => (hfm w).comp (measurable_pi_apply w))
      rw [show (pi univ s) = univ.pi (fun i => s i) from rfl, e3, ← lintegral_map hg hfm', e4]
      simp only [hmap]
      rw [pi_smul _ (fun w => by split_ifs <;> simp) , lintegral_smul_measure, smul_eq_mul]
      congr 1
      rw [← Finset.mul_prod_erase _ _ (Finset.mem_univ k)]
      simp only [if_true, one_mul]
      rw [Finset.sum_mul, ← Finset.sum_neg_distrib, Real.exp_sum, ENNReal.ofReal_prod_of_nonneg (fun _ _ => Real.exp_nonneg _)]
      refine Finset.prod_congr rfl (fun w hw => ?_)
      rw [if_neg (Finset.ne_of_mem_erase hw)]
    · rw [indicator_of_notMem (by exact hra), zero_mul]
      have : ∀ e : ι → ℝ, F (fun w => if w = k then r w else e w) = 0 := by
        intro e; simp only [hF, if_true]; rw [if_neg (fun h => hra h.2)]
      simp [this]
  have hind : Measurable fun r : ι → ℝ => (Ioi a).indicator (fun d => ENNReal.ofReal (Real.exp (-((∑ w ∈ Finset.univ.erase k, ρ w) * d)))) (r k) :=
    ((by fun_prop : Measurable fun d : ℝ => ENNReal.ofReal (Real.exp (-((∑ w ∈ Finset.univ.erase k, ρ w) * d)))).indicator
      measurableSet_Ioi).comp (measurable_pi_apply k)
  rw [lintegral_congr h2, lintegral_mul_const _ hind]
  congr 1
  have h3 := measurePreserving_eval (fun w => expMeasure (ρ w)) k
  have h4 : ∫⁻ r : ι → ℝ, (Ioi a).indicator (fun d => ENNReal.ofReal (Real.exp (-((∑ w ∈ Finset.univ.erase k, ρ w) * d)))) (r k)
      ∂Measure.pi (fun w => expMeasure (ρ w))
      = ∫⁻ d, (Ioi a).indicator (fun d => ENNReal.ofReal (Real.exp (-((∑ w ∈ Finset.univ.erase k, ρ w) * d)))) d ∂expMeasure (ρ k) := by
    rw [← h3.map_eq, lintegral_map _ (measurable_pi_apply k)]
    exact (by fun_prop : Measurable fun d : ℝ => ENNReal.ofReal (Real.exp (-((∑ w ∈ Finset.univ.erase k, ρ w) * d)))).indicator measurableSet_Ioi
  rw [h4, lintegral_indicator measurableSet_Ioi, exp_discount (hρ k) (Finset.sum_nonneg (fun w _ => (hρ w).le)) ha,
    Finset.add_sum_erase _ _ (Finset.mem_univ k)]

end

/-! ## Infinitely many independent draws -/

/-- The first draw, and the others. -/
def consSeq {Ω : Type*} (p : Ω × (ℕ → Ω)) : ℕ → Ω
  | 0 => p.1
  | n + 1 => p.2 n

theorem measurable_consSeq {Ω : Type*} [MeasurableSpace Ω] : Measurable (consSeq (Ω := Ω)) := by
  refine measurable_pi_lambda _ (fun n => ?_)
  cases n with
  | zero => exact measurable_fst
  | succ n => exact (measurable_pi_apply n).comp measurable_snd

theorem infinitePi_cons {Ω : Type*} [MeasurableSpace Ω] (P : Measure Ω) [IsProbabilityMeasure P] :
    (P.prod (Measure.infinitePi (fun _ : ℕ => P))).map consSeq = Measure.infinitePi (fun _ : ℕ => P) := by
  refine Measure.eq_infinitePi _ (fun s t ht => ?_)
  rw [Measure.map_apply measurable_consSeq (MeasurableSet.pi s.countable_toSet (fun i _ => ht i))]
  let s' : Finset ℕ := s.preimage Nat.succ (Nat.succ_injective.injOn)
  have hset : consSeq ⁻¹' (Set.pi s t) = (if 0 ∈ s then t 0 else univ) ×ˢ (Set.pi s' (fun n => t (n + 1))) := by
    ext p
    simp only [mem_preimage, Set.mem_pi, mem_prod]
    constructor
    · intro h
      refine ⟨?_, fun n hn => h (n + 1) (by simpa [s'] using hn)⟩
      split_ifs with h0
      · exact h 0 h0
      · trivial
    · rintro ⟨h1, h2⟩ n hn
      cases n with
      | zero => rw [if_pos (by exact hn)] at h1; exact h1
      | succ n => exact h2 n (by simpa [s'] using hn)
  rw [hset, Measure.prod_prod, Measure.infinitePi_pi _ (fun i _ => ht (i + 1))]
  have hprod : ∏ i ∈ s.erase 0, P (t i) = ∏ i ∈ s', P (t (i + 1)) := by
    refine (Finset.prod_nbij Nat.succ ?_ Nat.succ_injective.injOn ?_ (fun _ _ => rfl)).symm
    · intro n hn; simpa [s'] using hn
    · intro n hn
      obtain ⟨m, rfl⟩ : ∃ m, n = m + 1 := Nat.exists_eq_succ_of_ne_zero (Finset.ne_of_mem_erase hn)
      exact ⟨m, by simpa [s'] using hn, rfl⟩
  by_cases h0 : 0 ∈ s
  · rw [if_pos h0, ← Finset.mul_prod_erase s _ h0, hprod]
  · rw [if_neg h0, measure_univ, one_mul, ← hprod, Finset.erase_eq_of_notMem h0]

/-- The probability of an event, by the value of the first draw. -/
theorem infinitePi_first {Ω : Type*} [MeasurableSpace Ω] (P : Measure Ω) [IsProbabilityMeasure P] {E : Set (ℕ → Ω)} (hE : MeasurableSet E) :
    Measure.infinitePi (fun _ : ℕ => P) E = ∫⁻ x, Measure.infinitePi (fun _ : ℕ => P) {ω | consSeq (x, ω) ∈ E} ∂P := by
  conv_lhs => rw [← infinitePi_cons P]
  rw [Measure.map_apply measurable_consSeq hE, Measure.prod_apply (measurable_consSeq hE)]
  rfl

end PyCTBN.Clocks
