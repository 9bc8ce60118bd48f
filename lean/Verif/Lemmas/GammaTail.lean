import Verif.Lemmas.FDist
import Mathlib.MeasureTheory.Group.LIntegral
import Mathlib.Analysis.SpecialFunctions.Log.Basic

/-! # How far out the chi-square and F distributions reach: lower bounds on their tails -/
namespace PyCTBN
open MeasureTheory ProbabilityTheory Spec Set Filter Topology
open scoped ENNReal

/-- The density at `x'`, compared with the density at `x`. -/
theorem gamma_density_ratio {d x x' : ℝ} (hd : 2 ≤ d) (hx : 0 < x) (hx' : 0 < x') :
    Real.exp ((x' - x) * (d - 2 - x') / (2 * x')) * gammaPDFReal (d / 2) (1 / 2) x ≤ gammaPDFReal (d / 2) (1 / 2) x' := by
  unfold gammaPDFReal
  rw [if_pos hx.le, if_pos hx'.le]
  have hC : 0 < (1 / 2 : ℝ) ^ (d / 2) / Real.Gamma (d / 2) := div_pos (by positivity) (Real.Gamma_pos_of_pos (by linarith))
  rw [Real.rpow_def_of_pos hx, Real.rpow_def_of_pos hx']
  rw [show ∀ C A B E : ℝ, E * (C * A * B) = C * (E * A * B) by intros; ring, mul_assoc ((1 / 2 : ℝ) ^ (d / 2) / Real.Gamma (d / 2)) (Real.exp (Real.log x' * _)), mul_assoc (Real.exp _)]
  refine mul_le_mul_of_nonneg_left ?_ hC.le
  rw [← Real.exp_add, ← Real.exp_add, ← Real.exp_add]
  refine Real.exp_le_exp.2 ?_
  have hlog : 1 - x / x' ≤ Real.log x' - Real.log x := by
    rw [← Real.log_div hx'.ne' hx.ne']
    have := Real.one_sub_inv_le_log_of_pos (div_pos hx' hx)
    rwa [inv_div] at this
  have h1 : (d / 2 - 1) * (1 - x / x') ≤ (d / 2 - 1) * (Real.log x' - Real.log x) := mul_le_mul_of_nonneg_left hlog (by linarith)
  have h2 : (x' - x) * (d - 2 - x') / (2 * x') = (d / 2 - 1) * (1 - x / x') - 1 / 2 * (x' - x) := by
    field_simp
  rw [h2]
  linarith

/-- A set within three standard units of the mean, moved by a few more, still has some probability. -/
theorem chiSquare_shift {d K h : ℝ} (hK : 0 ≤ K) (hd : 2 * (K + 7) ≤ Real.sqrt d) (hh : |h| ≤ (K + 3) * Real.sqrt d) :
    3 / 4 * Real.exp (-(K + 7) ^ 2) ≤ (chiSquareDist d).real {y | |y - h - d| < 3 * Real.sqrt d} := by
  set σ := Real.sqrt d with hσ
  have hσ14 : 14 ≤ σ := by linarith
  have hd0 : 0 < d := by
    by_contra hn
    rw [hσ, Real.sqrt_eq_zero_of_nonpos (not_lt.1 hn)] at hσ14
    linarith
  have hdσ : d = σ ^ 2 := (Real.sq_sqrt hd0.le).symm
  have hp := chiSquareDist_prob hd0
  -- three quarters
  have hI : 3 / 4 ≤ (chiSquareDist d).real {x | |x - d| < 3 * σ} := by
    have h1 := chiSquareDist_deviation hd0 (δ := 3 / σ) (by positivity)
    have e : {x : ℝ | 3 / σ ≤ |x / d - 1|} = {x | |x - d| < 3 * σ}ᶜ := by
      ext x
      simp only [mem_ofPred_eq, mem_compl_iff, not_lt]
      rw [div_sub_one hd0.ne', abs_div, abs_of_pos hd0, div_le_div_iff₀ (by linarith) hd0, hdσ]
      constructor <;> intro h' <;> nlinarith
    have hm : MeasurableSet {x : ℝ | |x - d| < 3 * σ} := measurableSet_lt (by fun_prop) measurable_const
    rw [e, measureReal_compl hm, probReal_univ] at h1
    have h2 : 2 / (d * (3 / σ) ^ 2) = 2 / 9 := by
      rw [hdσ]; field_simp; norm_num
    rw [h2] at h1
    linarith
  have hmI : MeasurableSet {x : ℝ | |x - d| < 3 * σ} := measurableSet_lt (by fun_prop) measurable_const
  have hmJ : MeasurableSet {y : ℝ | |y - h - d| < 3 * σ} := measurableSet_lt (by fun_prop) measurable_const
  have key : ENNReal.ofReal (Real.exp (-(K + 7) ^ 2)) * chiSquareDist d {x | |x - d| < 3 * σ} ≤ chiSquareDist d {y | |y - h - d| < 3 * σ} := by
    unfold chiSquareDist gammaMeasure
    rw [withDensity_apply _ hmI, withDensity_apply _ hmJ, ← lintegral_indicator hmI, ← lintegral_indicator hmJ,
      ← lintegral_const_mul _ ((measurable_gammaPDF' _ _).indicator hmI),
      ← lintegral_add_right_eq_self (fun y => indicator {y : ℝ | |y - h - d| < 3 * σ} (gammaPDF (d / 2) (1 / 2)) y) h]
    refine lintegral_mono (fun x => ?_)
    by_cases hx : |x - d| < 3 * σ
    · rw [indicator_of_mem (show x ∈ {x : ℝ | |x - d| < 3 * σ} from hx),
        indicator_of_mem (show x + h ∈ {y : ℝ | |y - h - d| < 3 * σ} by simpa using hx)]
      unfold gammaPDF
      rw [← ENNReal.ofReal_mul (Real.exp_pos _).le]
      refine ENNReal.ofReal_le_ofReal ?_
      rw [abs_lt] at hx
      rw [abs_le] at hh
      have hx0 : 0 < x := by nlinarith
      have hx1 : d / 2 ≤ x + h := by nlinarith
      have hx2 : 0 < x + h := by linarith
      refine le_trans (mul_le_mul_of_nonneg_right (Real.exp_le_exp.2 ?_) (gammaPDFReal_nonneg (by positivity) (by norm_num) x))
        (gamma_density_ratio (by nlinarith) hx0 hx2)
      rw [le_div_iff₀ (by linarith)]
      have hz : |x + h - x| ≤ (K + 3) * σ := by rw [abs_le]; constructor <;> linarith
      have hw : |d - 2 - (x + h)| ≤ (K + 7) * σ := by rw [abs_le]; constructor <;> nlinarith
      have hprod : |(x + h - x) * (d - 2 - (x + h))| ≤ (K + 3) * σ * ((K + 7) * σ) := by
        rw [abs_mul]
        exact mul_le_mul hz hw (abs_nonneg _) (by positivity)
      have := (abs_le.1 hprod).1
      have h4 : (K + 3) * σ * ((K + 7) * σ) ≤ (K + 7) ^ 2 * d := by
        rw [hdσ]; nlinarith [mul_nonneg (add_nonneg hK (by norm_num : (0:ℝ) ≤ 7)) (sq_nonneg σ)]
      have h5 : (K + 7) ^ 2 * d ≤ (K + 7) ^ 2 * (2 * (x + h)) := mul_le_mul_of_nonneg_left (by linarith) (by positivity)
      linarith
    · rw [indicator_of_notMem (show x ∉ {x : ℝ | |x - d| < 3 * σ} from hx), mul_zero]
      exact zero_le
  have key' := ENNReal.toReal_mono (measure_ne_top _ _) key
  rw [ENNReal.toReal_mul, ENNReal.toReal_ofReal (Real.exp_pos _).le] at key'
  refine le_trans ?_ key'
  rw [mul_comm]
  exact mul_le_mul_of_nonneg_left hI (Real.exp_pos _).le

/-- The chi-square distribution reaches beyond `K` times the square root of its degrees of freedom to either side of the mean. -/
theorem chiSquare_tails {d K : ℝ} (hK : 0 ≤ K) (hd : 2 * (K + 7) ≤ Real.sqrt d) :
    3 / 4 * Real.exp (-(K + 7) ^ 2) ≤ (chiSquareDist d).real {x | d + K * Real.sqrt d ≤ x} ∧
    3 / 4 * Real.exp (-(K + 7) ^ 2) ≤ (chiSquareDist d).real {x | x ≤ d - K * Real.sqrt d} := by
  have hσ : 0 ≤ Real.sqrt d := Real.sqrt_nonneg d
  have hd0 : 0 < d := by
    by_contra hn
    rw [Real.sqrt_eq_zero_of_nonpos (not_lt.1 hn)] at hd
    linarith
  have hp := chiSquareDist_prob hd0
  constructor
  · refine (chiSquare_shift (h := (K + 3) * Real.sqrt d) hK hd (by rw [abs_of_nonneg (by positivity)])).trans (measureReal_mono ?_)
    intro y hy
    simp only [mem_ofPred_eq, abs_lt] at hy ⊢
    linarith [hy.1]
  · refine (chiSquare_shift (h := -((K + 3) * Real.sqrt d)) hK hd (by rw [abs_neg, abs_of_nonneg (by positivity)])).trans (measureReal_mono ?_)
    intro y hy
    simp only [mem_ofPred_eq, abs_lt] at hy ⊢
    linarith [hy.2]

/-- Quantiles of the F distribution for small levels are at least `K / √d1` away from 1. -/
theorem quantile_fDist_wide {d1 d2 K q : ℝ} (hK : 0 ≤ K) (h1 : 2 * (K + 7) ≤ Real.sqrt d1) (h2 : 2 * (K + 7) ≤ Real.sqrt d2) (hq0 : 0 < q)
    (hq : q < 9 / 16 * Real.exp (-(2 * (K + 7) ^ 2))) :
    quantile (fDist d1 d2) q ≤ 1 - K / Real.sqrt d1 ∧ 1 + K / Real.sqrt d1 ≤ quantile (fDist d1 d2) (1 - q) := by
  have pos : ∀ d : ℝ, 2 * (K + 7) ≤ Real.sqrt d → 0 < d := by
    intro d hd
    by_contra hn
    rw [Real.sqrt_eq_zero_of_nonpos (not_lt.1 hn)] at hd
    linarith
  have p1 := pos _ h1
  have p2 := pos _ h2
  have i1 := chiSquareDist_prob p1
  have i2 := chiSquareDist_prob p2
  have iF := fDist_prob p1 p2
  obtain ⟨u1, l1⟩ := chiSquare_tails hK h1
  obtain ⟨u2, l2⟩ := chiSquare_tails hK h2
  set σ1 := Real.sqrt d1 with hσ1
  set σ2 := Real.sqrt d2 with hσ2
  have s1 : 14 ≤ σ1 := by linarith
  have s2 : 14 ≤ σ2 := by linarith
  have e1 : d1 = σ1 ^ 2 := (Real.sq_sqrt p1.le).symm
  have e2 : d2 = σ2 ^ 2 := (Real.sq_sqrt p2.le).symm
  have he : 9 / 16 * Real.exp (-(2 * (K + 7) ^ 2)) = 3 / 4 * Real.exp (-(K + 7) ^ 2) * (3 / 4 * Real.exp (-(K + 7) ^ 2)) := by
    rw [show -(2 * (K + 7) ^ 2) = -(K + 7) ^ 2 + -(K + 7) ^ 2 by ring, Real.exp_add]; ring
  have hex : 0 < 3 / 4 * Real.exp (-(K + 7) ^ 2) := by positivity
  have hex1 : q < 1 := by
    refine hq.trans ?_
    have : Real.exp (-(2 * (K + 7) ^ 2)) ≤ 1 := Real.exp_le_one_iff.2 (by nlinarith [sq_nonneg (K + 7)])
    linarith
  -- both tails of the quotient
  have hlow : 9 / 16 * Real.exp (-(2 * (K + 7) ^ 2)) ≤ (fDist d1 d2).real (Iic (1 - K / σ1)) := by
    rw [fDist_real measurableSet_Iic, he]
    refine (mul_le_mul l1 u2 hex.le measureReal_nonneg).trans ?_
    rw [← measureReal_prod_prod]
    refine measureReal_mono ?_
    rintro ⟨x, y⟩ ⟨hx, hy⟩
    simp only [mem_ofPred_eq, mem_Iic] at hx hy ⊢
    have hy0 : 1 ≤ y / d2 := by rw [le_div_iff₀ p2]; nlinarith
    have hx1 : x / d1 ≤ 1 - K / σ1 := by
      rw [div_le_iff₀ p1, e1]
      have : (1 - K / σ1) * σ1 ^ 2 = σ1 ^ 2 - K * σ1 := by field_simp
      rw [this, ← e1]; exact hx
    have hK1 : 0 ≤ 1 - K / σ1 := by
      rw [sub_nonneg, div_le_one (by linarith)]; linarith
    rw [div_le_iff₀ (by linarith)]
    nlinarith
  have hup : 9 / 16 * Real.exp (-(2 * (K + 7) ^ 2)) ≤ (fDist d1 d2).real (Ici (1 + K / σ1)) := by
    rw [fDist_real measurableSet_Ici, he]
    refine (mul_le_mul u1 l2 hex.le measureReal_nonneg).trans ?_
    rw [← measureReal_prod_prod]
    have hae := ae_iff.1 (pair_pos p1 p2)
    refine le_trans (measureReal_mono (s₂ := {p : ℝ × ℝ | p.1 / d1 / (p.2 / d2) ∈ Ici (1 + K / σ1)} ∪ {p | ¬ (0 < p.1 ∧ 0 < p.2)}) ?_)
      ((measureReal_union_le _ _).trans (le_of_eq ?_))
    · rintro ⟨x, y⟩ ⟨hx, hy⟩
      by_cases hpos : 0 < x ∧ 0 < y
      · left
        simp only [mem_ofPred_eq, mem_Ici] at hx hy ⊢
        have hy1 : y / d2 ≤ 1 := by rw [div_le_iff₀ p2]; nlinarith
        have hy0 : 0 < y / d2 := div_pos hpos.2 p2
        have hx1 : 1 + K / σ1 ≤ x / d1 := by
          rw [le_div_iff₀ p1, e1]
          have : (1 + K / σ1) * σ1 ^ 2 = σ1 ^ 2 + K * σ1 := by field_simp
          rw [this, ← e1]; exact hx
        have hK1 : 0 ≤ K / σ1 := by positivity
        rw [le_div_iff₀ hy0]
        nlinarith
      · right; exact hpos
    · rw [measureReal_def, measureReal_def, hae]; simp
  refine ⟨quantile_le hq0 (hq.le.trans hlow), le_quantile (by linarith) (fun y hy => ?_)⟩
  have hd : Disjoint (Iic y) (Ici (1 + K / σ1)) := by
    rw [Set.disjoint_left]
    intro z hz hz'
    exact absurd (hz'.trans hz) (not_le.2 hy)
  have := measureReal_union (μ := fDist d1 d2) hd measurableSet_Ici
  have hle : (fDist d1 d2).real (Iic y ∪ Ici (1 + K / σ1)) ≤ 1 := measureReal_le_one
  linarith

/-- Beyond `L ≥ 1` a chi-square variable has a probability of at least a constant times `exp (-L)`. -/
theorem chiSquare_far {d : ℝ} (hd : 1 ≤ d) : ∃ C > 0, ∀ L : ℝ, 1 ≤ L → C * Real.exp (-L) ≤ (chiSquareDist d).real (Ici L) := by
  have hd0 : 0 < d := by linarith
  have hp := chiSquareDist_prob hd0
  have hG : 0 < (1 / 2 : ℝ) ^ (d / 2) / Real.Gamma (d / 2) := div_pos (by positivity) (Real.Gamma_pos_of_pos (by linarith))
  refine ⟨(1 / 2 : ℝ) ^ (d / 2) / Real.Gamma (d / 2) * Real.exp (-1), by positivity, fun L hL => ?_⟩
  set G := (1 / 2 : ℝ) ^ (d / 2) / Real.Gamma (d / 2) with hGd
  have key : ENNReal.ofReal (G * Real.exp (-1) * Real.exp (-L)) ≤ chiSquareDist d (Ici L) := by
    refine le_trans ?_ (measure_mono (show Icc L (L + 1) ⊆ Ici L from fun _ h => h.1))
    unfold chiSquareDist gammaMeasure
    rw [withDensity_apply _ measurableSet_Icc]
    refine le_trans (le_of_eq ?_) (setLIntegral_mono (f := fun _ => ENNReal.ofReal (G * Real.exp (-1) * Real.exp (-L))) (measurable_gammaPDF' _ _) ?_)
    · rw [setLIntegral_const, Real.volume_Icc]; simp
    · intro x hx
      have hx1 : 1 ≤ x := hL.trans hx.1
      rw [gammaPDF_of_nonneg (by linarith)]
      refine ENNReal.ofReal_le_ofReal ?_
      rw [mul_assoc, mul_assoc, ← hGd]
      refine mul_le_mul_of_nonneg_left ?_ hG.le
      rw [Real.rpow_def_of_pos (by linarith), ← Real.exp_add, ← Real.exp_add]
      refine Real.exp_le_exp.2 ?_
      have hl0 : 0 ≤ Real.log x := Real.log_nonneg hx1
      have hl1 : Real.log x ≤ x - 1 := Real.log_le_sub_one_of_pos (by linarith)
      have h1 : Real.log x * (-1 / 2) ≤ Real.log x * (d / 2 - 1) := mul_le_mul_of_nonneg_left (by linarith) hl0
      linarith [hx.2]
  have := ENNReal.toReal_mono (measure_ne_top _ _) key
  rwa [ENNReal.toReal_ofReal (by positivity)] at this

theorem quantile_chiSquare_wide {d : ℝ} (hd : 1 ≤ d) : ∃ C > 0, ∀ L β : ℝ, 1 ≤ L → 0 < β → β < C * Real.exp (-L) → L ≤ quantile (chiSquareDist d) (1 - β) := by
  obtain ⟨C, hC, h⟩ := chiSquare_far hd
  have hp := chiSquareDist_prob (by linarith : 0 < d)
  refine ⟨C, hC, fun L β hL hβ hlt => le_quantile (by linarith) (fun y hy => ?_)⟩
  have hd : Disjoint (Iic y) (Ici L) := by
    rw [Set.disjoint_left]
    intro z hz hz'
    exact absurd (hz'.trans hz) (not_le.2 hy)
  have := measureReal_union (μ := chiSquareDist d) hd measurableSet_Ici
  have hle : (chiSquareDist d).real (Iic y ∪ Ici L) ≤ 1 := measureReal_le_one
  linarith [h L hL]

end PyCTBN
