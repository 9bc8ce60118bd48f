import Verif.Lemmas.LevelTest
import Verif.Lemmas.ScipyLevels

/-! # scipy's quantiles along a sequence of levels -/
namespace PyCTBN
open Spec Indep Filter Topology

/-- scipy's quantiles at levels `a k`, `b k` that vanish, `exp (-h k)` being a bound, more slowly than the inverses of the sizes `m k`. -/
theorem scipy_along {a b m h : ℕ → ℝ} (hm : Tendsto m atTop atTop) (hh : Tendsto h atTop atTop) (hhm : Tendsto (fun k => h k / m k) atTop (𝓝 0))
    (ha0 : ∀ k, 0 < a k) (hb0 : ∀ k, 0 < b k) (hah : ∀ k, a k ≤ Real.exp (-h k)) (hbh : ∀ k, b k ≤ Real.exp (-h k))
    (has : Tendsto (fun k => m k * a k) atTop atTop) (hbs : Tendsto (fun k => m k * b k) atTop atTop) (thr : ℝ) {c : Nat} (hc : 2 ≤ c) :
    LevelsAlong (fun k => scipyParams (a k) (b k) thr) m h c := by
  have hlt : ∀ᶠ k in atTop, Real.exp (-h k) < 1 := by
    filter_upwards [hh.eventually_gt_atTop 0] with k hk
    rw [Real.exp_lt_one_iff]; linarith
  have hhalf : ∀ C : ℝ, 0 < C → ∀ᶠ k in atTop, Real.exp (-h k) < C * Real.exp (-(h k / 2)) := by
    intro C hC
    have h1 : Tendsto (fun k => Real.exp (-(h k / 2))) atTop (𝓝 0) :=
      Real.tendsto_exp_neg_atTop_nhds_zero.comp (hh.atTop_div_const (by norm_num : (0 : ℝ) < 2))
    filter_upwards [h1.eventually (gt_mem_nhds hC)] with k hk
    have e : Real.exp (-h k) = Real.exp (-(h k / 2)) * Real.exp (-(h k / 2)) := by
      rw [← Real.exp_add]; congr 1; ring
    rw [e]
    exact mul_lt_mul_of_pos_right hk (Real.exp_pos _)
  refine ⟨hh, hhm, ?_, ?_, ?_, ?_, ?_⟩
  · intro κ hκ ε hε
    set δ := min (ε / 8) (1 / 2) with hδ
    have hδ0 : 0 < δ := lt_min (by positivity) (by norm_num)
    filter_upwards [hlt, has.eventually_gt_atTop (8 / (κ * δ ^ 2)), hm.eventually_gt_atTop 0] with k l1 h2 hs r1 r2 k1 k2
    have a0 := ha0 k
    have a1 : a k < 1 := (hah k).trans_lt l1
    have p1 : (0 : ℝ) < r1 := (by positivity : 0 < κ * m k).trans_le k1
    have p2 : (0 : ℝ) < r2 := (by positivity : 0 < κ * m k).trans_le k2
    have hb : ∀ q, q = a k / 2 ∨ q = 1 - a k / 2 → |quantile (fDist r1 r2) q - 1| < ε := by
      intro q hq
      have hmin : min q (1 - q) = a k / 2 := by
        rcases hq with rfl | rfl
        · exact min_eq_left (by linarith)
        · rw [min_eq_right (by linarith)]; ring
      have hl : 4 / (min q (1 - q) * δ ^ 2) < κ * m k := by
        rw [hmin, div_lt_iff₀ (by positivity)]
        rw [div_lt_iff₀ (by positivity)] at h2
        nlinarith
      have := quantile_fDist_close (q := q) (δ := δ) (by rcases hq with rfl | rfl <;> linarith) (by rcases hq with rfl | rfl <;> linarith)
        hδ0 (min_le_right _ _) p1 p2 (hl.trans_le k1) (hl.trans_le k2)
      have := min_le_left (ε / 8) (1 / 2)
      linarith
    exact ⟨_, _, ppf_mid (q := a k / 2) ⟨p1, p2⟩ _ (by linarith) (by linarith), ppf_mid (q := 1 - a k / 2) ⟨p1, p2⟩ _ (by linarith) (by linarith),
      hb _ (.inl rfl), hb _ (.inr rfl)⟩
  · intro κ hκ
    -- `K² = h / 8`
    set η := Real.sqrt (1 / 8) * Real.sqrt κ with hη
    refine ⟨η, by positivity, ?_⟩
    have hinv : Tendsto (fun k => 1 / m k) atTop (𝓝 0) := by
      simp only [one_div]
      exact hm.inv_tendsto_atTop
    have hK : ∀ᶠ k in atTop, 8 * (1 / 8) * (h k / m k) + 392 * (1 / m k) < κ := by
      have : Tendsto (fun k => 8 * (1 / 8) * (h k / m k) + 392 * (1 / m k)) atTop (𝓝 (8 * (1 / 8) * 0 + 392 * 0)) :=
        (hhm.const_mul _).add (hinv.const_mul _)
      rw [mul_zero, mul_zero, add_zero] at this
      exact this.eventually (gt_mem_nhds hκ)
    filter_upwards [hlt, hK, hm.eventually_gt_atTop 0, hh.eventually_gt_atTop 0, hhalf (9 / 16 * Real.exp (-196)) (by positivity)]
      with k l1 h2 hs0 hl0 h3 r1 r2 k1 k2 k3
    have a0 := ha0 k
    have a1 : a k < 1 := (hah k).trans_lt l1
    have h1 := hah k
    have p1 : (0 : ℝ) < r1 := (by positivity : 0 < κ * m k).trans_le k1
    have p2 : (0 : ℝ) < r2 := (by positivity : 0 < κ * m k).trans_le k2
    set K := Real.sqrt (1 / 8 * h k) with hKd
    have hK0 : 0 ≤ K := Real.sqrt_nonneg _
    have hK2 : K ^ 2 = 1 / 8 * h k := Real.sq_sqrt (by positivity)
    have hbig : (2 * (K + 7)) ^ 2 ≤ κ * m k := by
      have e1 : (2 * (K + 7)) ^ 2 ≤ 8 * K ^ 2 + 392 := by nlinarith [sq_nonneg (K - 7)]
      rw [hK2] at e1
      have e2 : (8 * (1 / 8) * (h k / m k) + 392 * (1 / m k)) * m k ≤ κ * m k := mul_le_mul_of_nonneg_right h2.le hs0.le
      have e3 : (8 * (1 / 8) * (h k / m k) + 392 * (1 / m k)) * m k = 8 * (1 / 8 * h k) + 392 := by field_simp
      linarith
    have q1 : 2 * (K + 7) ≤ Real.sqrt r1 := Real.le_sqrt_of_sq_le (hbig.trans k1)
    have q2 : 2 * (K + 7) ≤ Real.sqrt r2 := Real.le_sqrt_of_sq_le (hbig.trans k2)
    have hlev : a k / 2 < 9 / 16 * Real.exp (-(2 * (K + 7) ^ 2)) := by
      have e1 : 2 * (K + 7) ^ 2 ≤ 4 * K ^ 2 + 196 := by nlinarith [sq_nonneg (K - 7)]
      have e2 : Real.exp (-(4 * K ^ 2 + 196)) ≤ Real.exp (-(2 * (K + 7) ^ 2)) := Real.exp_le_exp.2 (by linarith)
      have e3 : Real.exp (-(4 * K ^ 2 + 196)) = Real.exp (-196) * Real.exp (-(h k / 2)) := by
        rw [← Real.exp_add, hK2]; congr 1; ring
      have e4 : a k / 2 ≤ a k := by linarith
      nlinarith
    obtain ⟨w1, w2⟩ := quantile_fDist_wide hK0 q1 q2 (by linarith) hlev
    have hgap : η * Real.sqrt (h k / m k) ≤ K / Real.sqrt r1 := by
      rw [le_div_iff₀ (Real.sqrt_pos.2 p1), hη, hKd, ← Real.sqrt_mul (by positivity), ← Real.sqrt_mul (by positivity), ← Real.sqrt_mul (by positivity)]
      refine Real.sqrt_le_sqrt ?_
      have : 1 / 8 * κ * (h k / m k) * r1 = 1 / 8 * h k * (κ * r1 / m k) := by ring
      rw [this]
      refine mul_le_of_le_one_right (by positivity) ?_
      rw [div_le_one hs0]; exact k3
    exact ⟨_, _, ppf_mid (q := a k / 2) ⟨p1, p2⟩ _ (by linarith) (by linarith), ppf_mid (q := 1 - a k / 2) ⟨p1, p2⟩ _ (by linarith) (by linarith),
      by linarith, by linarith⟩
  · intro κ hκ
    have hd0 : (0 : ℝ) < (c : ℝ) - 1 := by
      have : (2 : ℝ) ≤ c := by exact_mod_cast hc
      linarith
    set d := (c : ℝ) - 1 with hd
    filter_upwards [hlt, hbs.eventually_ge_atTop 1, hm.eventually_gt_atTop 0, hm.eventually_gt_atTop (2 * d / κ), hm.eventually_gt_atTop (8 * d / κ ^ 2)]
      with k l1 h1 hs h2 h3
    have b0 := hb0 k
    have b1 : b k < 1 := (hbh k).trans_lt l1
    refine ⟨_, ppf_mid (q := 1 - b k) hd0 _ (by linarith) (by linarith), lt_of_le_of_lt (quantile_chiSquareDist_le hd0 b0 b1) ?_⟩
    have e1 : 2 * d / b k ≤ 2 * d * m k := by
      rw [div_le_iff₀ b0]; nlinarith
    rw [div_lt_iff₀ (by positivity)] at h2 h3
    have e2 : Real.sqrt (2 * d / b k) < κ * m k / 2 := by
      rw [Real.sqrt_lt' (by positivity)]
      nlinarith
    linarith
  · have hd1 : (1 : ℝ) ≤ (c : ℝ) - 1 := by
      have : (2 : ℝ) ≤ c := by exact_mod_cast hc
      linarith
    obtain ⟨C, hC, hq⟩ := quantile_chiSquare_wide hd1
    refine ⟨1 / 4, by norm_num, ?_⟩
    filter_upwards [hlt, hhalf C hC, hh.eventually_ge_atTop 2] with k l1 h2 h3
    have b0 := hb0 k
    have b1 : b k < 1 := (hbh k).trans_lt l1
    refine ⟨_, ppf_mid (q := 1 - b k) (by linarith) _ (by linarith) (by linarith), lt_of_lt_of_le ?_ (hq (h k / 2) (b k) (by linarith) b0 ((hbh k).trans_lt h2))⟩
    linarith
  · intro κ hκ
    filter_upwards [hm.eventually_gt_atTop (thr / κ)] with k hs
    rw [div_lt_iff₀ hκ] at hs
    show thr < κ * m k
    linarith

end PyCTBN
