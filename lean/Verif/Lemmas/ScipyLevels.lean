import Verif.Spec.Levels
import Verif.Lemmas.GammaTail
import Verif.Props.ScipyQuantiles
import Mathlib.Analysis.SpecialFunctions.Log.Deriv
import Mathlib.Analysis.SpecialFunctions.Pow.Asymptotics

/-! # scipy's quantiles at shrinking significance levels -/
namespace PyCTBN
open MeasureTheory ProbabilityTheory Spec Set Filter Topology

theorem tendsto_log_div_self : Tendsto (fun s : ℝ => Real.log s / s) atTop (𝓝 0) := by
  have := Real.isLittleO_log_id_atTop.tendsto_div_nhds_zero
  exact this

theorem rpow_small {γ C : ℝ} (hγ : 0 < γ) (hC : 0 < C) : ∀ᶠ s : ℝ in atTop, s ^ (-γ) < C * Real.exp (-(γ / 2 * Real.log s)) := by
  have h := (tendsto_rpow_neg_atTop (show 0 < γ / 2 by positivity)).eventually (gt_mem_nhds hC)
  filter_upwards [h, eventually_gt_atTop 0] with s hs h0
  have e : s ^ (-γ) = s ^ (-(γ / 2)) * Real.exp (-(γ / 2 * Real.log s)) := by
    rw [show -(γ / 2 * Real.log s) = Real.log s * (-(γ / 2)) by ring, ← Real.rpow_def_of_pos h0, ← Real.rpow_add h0]
    congr 1; ring
  rw [e]
  exact mul_lt_mul_of_pos_right hs (Real.exp_pos _)

theorem Spec.ShrinkingLevel.lt_one {A : ℝ → ℝ} (hA : ShrinkingLevel A) : ∀ᶠ s in atTop, 0 < A s ∧ A s < 1 := by
  obtain ⟨γ, hγ, h⟩ := hA.small
  filter_upwards [h, (tendsto_rpow_neg_atTop hγ).eventually (gt_mem_nhds (show (0 : ℝ) < 1 by norm_num))] with s h1 h2
  exact ⟨h1.1, h1.2.trans_lt h2⟩

/-- scipy's quantiles at shrinking levels. -/
theorem scipy_levels {A B : ℝ → ℝ} (hA : ShrinkingLevel A) (hB : ShrinkingLevel B) (thr : ℝ) {c : Nat} (hc : 2 ≤ c) :
    LevelsTighten (fun s => scipyParams (A s) (B s) thr) c where
  tight κ hκ ε hε := by
    set δ := min (ε / 8) (1 / 2) with hδ
    have hδ0 : 0 < δ := lt_min (by positivity) (by norm_num)
    filter_upwards [hA.lt_one, hA.slow.eventually_gt_atTop (8 / (κ * δ ^ 2)), eventually_gt_atTop 0] with s ⟨a0, a1⟩ h2 hs r1 r2 k1 k2
    have p1 : (0 : ℝ) < r1 := (by positivity : 0 < κ * s).trans_le k1
    have p2 : (0 : ℝ) < r2 := (by positivity : 0 < κ * s).trans_le k2
    have hb : ∀ q, q = A s / 2 ∨ q = 1 - A s / 2 → |quantile (fDist r1 r2) q - 1| < ε := by
      intro q hq
      have hmin : min q (1 - q) = A s / 2 := by
        rcases hq with rfl | rfl
        · exact min_eq_left (by linarith)
        · rw [min_eq_right (by linarith)]; ring
      have hl : 4 / (min q (1 - q) * δ ^ 2) < κ * s := by
        rw [hmin, div_lt_iff₀ (by positivity)]
        rw [div_lt_iff₀ (by positivity)] at h2
        nlinarith
      have := quantile_fDist_close (q := q) (δ := δ) (by rcases hq with rfl | rfl <;> linarith) (by rcases hq with rfl | rfl <;> linarith)
        hδ0 (min_le_right _ _) p1 p2 (hl.trans_le k1) (hl.trans_le k2)
      have := min_le_left (ε / 8) (1 / 2)
      linarith
    exact ⟨_, _, ppf_mid (q := A s / 2) ⟨p1, p2⟩ _ (by linarith) (by linarith), ppf_mid (q := 1 - A s / 2) ⟨p1, p2⟩ _ (by linarith) (by linarith),
      hb _ (.inl rfl), hb _ (.inr rfl)⟩
  wide κ hκ := by
    obtain ⟨γ, hγ, hsm⟩ := hA.small
    -- `K² = (γ / 8) log s`
    set η := Real.sqrt (γ / 8) * Real.sqrt κ with hη
    refine ⟨η, by positivity, ?_⟩
    have hlog : Tendsto (fun s : ℝ => Real.log s / s) atTop (𝓝 0) := tendsto_log_div_self
    have hinv : Tendsto (fun s : ℝ => 1 / s) atTop (𝓝 0) := by simpa only [one_div] using tendsto_inv_atTop_zero
    have hK : ∀ᶠ s : ℝ in atTop, 8 * (γ / 8) * (Real.log s / s) + 392 * (1 / s) < κ := by
      have : Tendsto (fun s : ℝ => 8 * (γ / 8) * (Real.log s / s) + 392 * (1 / s)) atTop (𝓝 (8 * (γ / 8) * 0 + 392 * 0)) :=
        (hlog.const_mul _).add (hinv.const_mul _)
      rw [mul_zero, mul_zero, add_zero] at this
      exact this.eventually (gt_mem_nhds hκ)
    filter_upwards [hA.lt_one, hsm, hK, eventually_gt_atTop 1, rpow_small hγ (show 0 < 9 / 16 * Real.exp (-196) by positivity)]
      with s ⟨a0, a1⟩ ⟨_, h1⟩ h2 hs h3 r1 r2 k1 k2 k3
    have hs0 : (0 : ℝ) < s := by linarith
    have p1 : (0 : ℝ) < r1 := (by positivity : 0 < κ * s).trans_le k1
    have p2 : (0 : ℝ) < r2 := (by positivity : 0 < κ * s).trans_le k2
    have hl0 : 0 ≤ Real.log s := Real.log_nonneg hs.le
    set K := Real.sqrt (γ / 8 * Real.log s) with hKd
    have hK0 : 0 ≤ K := Real.sqrt_nonneg _
    have hK2 : K ^ 2 = γ / 8 * Real.log s := Real.sq_sqrt (by positivity)
    have hbig : (2 * (K + 7)) ^ 2 ≤ κ * s := by
      have e1 : (2 * (K + 7)) ^ 2 ≤ 8 * K ^ 2 + 392 := by nlinarith [sq_nonneg (K - 7)]
      rw [hK2] at e1
      have e2 : (8 * (γ / 8) * (Real.log s / s) + 392 * (1 / s)) * s ≤ κ * s := mul_le_mul_of_nonneg_right h2.le hs0.le
      have e3 : (8 * (γ / 8) * (Real.log s / s) + 392 * (1 / s)) * s = 8 * (γ / 8 * Real.log s) + 392 := by field_simp
      linarith
    have q1 : 2 * (K + 7) ≤ Real.sqrt r1 := Real.le_sqrt_of_sq_le (hbig.trans k1)
    have q2 : 2 * (K + 7) ≤ Real.sqrt r2 := Real.le_sqrt_of_sq_le (hbig.trans k2)
    have hlev : A s / 2 < 9 / 16 * Real.exp (-(2 * (K + 7) ^ 2)) := by
      have e1 : 2 * (K + 7) ^ 2 ≤ 4 * K ^ 2 + 196 := by nlinarith [sq_nonneg (K - 7)]
      have e2 : Real.exp (-(4 * K ^ 2 + 196)) ≤ Real.exp (-(2 * (K + 7) ^ 2)) := Real.exp_le_exp.2 (by linarith)
      have e3 : Real.exp (-(4 * K ^ 2 + 196)) = Real.exp (-196) * Real.exp (-(γ / 2 * Real.log s)) := by
        rw [← Real.exp_add, hK2]; congr 1; ring
      have e4 : A s / 2 ≤ A s := by linarith
      nlinarith
    obtain ⟨w1, w2⟩ := quantile_fDist_wide hK0 q1 q2 (by linarith) hlev
    have hgap : η * Real.sqrt (Real.log s / s) ≤ K / Real.sqrt r1 := by
      rw [le_div_iff₀ (Real.sqrt_pos.2 p1), hη, hKd, ← Real.sqrt_mul (by positivity), ← Real.sqrt_mul (by positivity), ← Real.sqrt_mul (by positivity)]
      refine Real.sqrt_le_sqrt ?_
      have : γ / 8 * κ * (Real.log s / s) * r1 = γ / 8 * Real.log s * (κ * r1 / s) := by ring
      rw [this]
      refine mul_le_of_le_one_right (by positivity) ?_
      rw [div_le_one hs0]; exact k3
    exact ⟨_, _, ppf_mid (q := A s / 2) ⟨p1, p2⟩ _ (by linarith) (by linarith), ppf_mid (q := 1 - A s / 2) ⟨p1, p2⟩ _ (by linarith) (by linarith),
      by linarith, by linarith⟩
  chiUp κ hκ := by
    have hd0 : (0 : ℝ) < (c : ℝ) - 1 := by
      have : (2 : ℝ) ≤ c := by exact_mod_cast hc
      linarith
    set d := (c : ℝ) - 1 with hd
    filter_upwards [hB.lt_one, hB.slow.eventually_ge_atTop 1, eventually_gt_atTop 0, eventually_gt_atTop (2 * d / κ), eventually_gt_atTop (8 * d / κ ^ 2)]
      with s ⟨b0, b1⟩ h1 hs h2 h3
    refine ⟨_, ppf_mid (q := 1 - B s) hd0 _ (by linarith) (by linarith), lt_of_le_of_lt (quantile_chiSquareDist_le hd0 b0 b1) ?_⟩
    have e1 : 2 * d / B s ≤ 2 * d * s := by
      rw [div_le_iff₀ b0]; nlinarith
    rw [div_lt_iff₀ (by positivity)] at h2 h3
    have e2 : Real.sqrt (2 * d / B s) < κ * s / 2 := by
      rw [Real.sqrt_lt' (by positivity)]
      nlinarith
    linarith
  chiLow := by
    have hd1 : (1 : ℝ) ≤ (c : ℝ) - 1 := by
      have : (2 : ℝ) ≤ c := by exact_mod_cast hc
      linarith
    obtain ⟨γ, hγ, hsm⟩ := hB.small
    obtain ⟨C, hC, hq⟩ := quantile_chiSquare_wide hd1
    refine ⟨γ / 4, by positivity, ?_⟩
    filter_upwards [hB.lt_one, hsm, rpow_small hγ hC, Real.tendsto_log_atTop.eventually_ge_atTop (2 / γ)] with s ⟨b0, b1⟩ ⟨_, h1⟩ h2 h3
    rw [div_le_iff₀ hγ] at h3
    refine ⟨_, ppf_mid (q := 1 - B s) (by linarith) _ (by linarith) (by linarith), lt_of_lt_of_le ?_ (hq (γ / 2 * Real.log s) (B s) (by linarith) b0 (h1.trans_lt h2))⟩
    linarith
  thumb κ hκ := by
    filter_upwards [eventually_gt_atTop (thr / κ)] with s hs
    rw [div_lt_iff₀ hκ] at hs
    show thr < κ * s
    linarith

end PyCTBN
