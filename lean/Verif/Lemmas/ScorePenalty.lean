import Verif.Lemmas.ScoreLimit

/-!
# The marginal likelihood of growing data, to second order: the price of a superfluous parent
-/

namespace PyCTBN
open Spec Filter Topology

section
variable {N : ℕ → ℝ}

/-- The maximal log likelihood of a cell. -/
noncomputable def fitOf (T : Finset Nat) (m : Nat → ℝ) (t : ℝ) : ℝ := ∑ y ∈ T, (m y * Real.log (m y / t) - m y)

/-- The log marginal likelihood of a cell is the maximal log likelihood less half the logarithm of the size per parameter, up to a bounded error. -/
theorem cell_second (hN : Tendsto N atTop atTop) {τ α w : ℝ} (hτ : 0 < τ) (hα : 0 < α) (hw : 0 < w) (T : Finset Nat) (hTw : T.card * w = α)
    {m : ℕ → Nat → Nat} {t : ℕ → ℝ} (ht : ∀ k, 0 ≤ t k) {μ : Nat → ℝ} {S : ℝ} (hS : 0 < S) (hμ : ∀ y ∈ T, 0 < μ y)
    (hm : ∀ y ∈ T, Tendsto (fun k => (m k y : ℝ) / N k) atTop (𝓝 (μ y))) (hT : Tendsto (fun k => t k / N k) atTop (𝓝 S)) :
    ∃ C, ∀ᶠ k in atTop, |Real.log (cellMarginal τ α w T (m k) (t k)) - (fitOf T (fun y => m k y) (t k) - T.card / 2 * Real.log (N k))| ≤ C := by
  obtain ⟨C, hC⟩ := log_rising_bounded hw
  have hne : T.Nonempty := by
    rw [Finset.nonempty_iff_ne_empty]
    rintro rfl
    simp at hTw
    exact hα.ne hTw
  set μs := ∑ y ∈ T, μ y with hμs
  have hμ0 : 0 < μs := Finset.sum_pos hμ hne
  have hM : Tendsto (fun k => ((∑ y ∈ T, m k y : ℕ) : ℝ) / N k) atTop (𝓝 μs) := by
    refine (tendsto_finsetSum T hm).congr (fun k => ?_)
    push_cast
    rw [Finset.sum_div]
  have l1 : Tendsto (fun k => ∑ y ∈ T, (w - 1 / 2) * Real.log (m k y / N k)) atTop (𝓝 (∑ y ∈ T, (w - 1 / 2) * Real.log (μ y))) :=
    tendsto_finsetSum T (fun y hy => ((Real.continuousAt_log (hμ y hy).ne').tendsto.comp (hm y hy)).const_mul _)
  have hMα : Tendsto (fun k => (α + ((∑ y ∈ T, m k y : ℕ) : ℝ)) / N k) atTop (𝓝 μs) := by
    have := (inv_over hN α).add hM
    rw [zero_add] at this
    exact this.congr (fun k => by rw [add_div])
  have l2 : Tendsto (fun k => Real.log ((α + ((∑ y ∈ T, m k y : ℕ) : ℝ)) / N k)) atTop (𝓝 (Real.log μs)) := (Real.continuousAt_log hμ0.ne').tendsto.comp hMα
  have htau : Tendsto (fun k => (τ + t k) / N k) atTop (𝓝 S) := by
    have := (inv_over hN τ).add hT
    rw [zero_add] at this
    exact this.congr (fun k => by rw [add_div])
  have l3 : Tendsto (fun k => Real.log ((τ + t k) / N k)) atTop (𝓝 (Real.log S)) := (Real.continuousAt_log hS.ne').tendsto.comp htau
  have l4 : Tendsto (fun k => ((∑ y ∈ T, m k y : ℕ) : ℝ) / N k / (t k / N k) * τ) atTop (𝓝 (μs / S * τ)) := (hM.div hT hS.ne').mul_const τ
  have hH := (((l1.add l2).sub (l3.const_mul (α + 1))).add_const ((α + 1) * Real.log τ - Real.log α))
  set h := ∑ y ∈ T, (w - 1 / 2) * Real.log (μ y) + Real.log μs - (α + 1) * Real.log S + ((α + 1) * Real.log τ - Real.log α) with hh
  refine ⟨T.card * C + (|h| + 1) + (μs / S * τ + 1), ?_⟩
  have hpos : ∀ᶠ k in atTop, ∀ y ∈ T, 0 < (m k y : ℝ) / N k := by
    rw [Filter.eventually_all_finset]
    exact fun y hy => (hm y hy).eventually (lt_mem_nhds (hμ y hy))
  have htpos : ∀ᶠ k in atTop, 0 < t k / N k := hT.eventually (lt_mem_nhds hS)
  filter_upwards [hN.eventually_gt_atTop 0, hpos, htpos, (hH.abs).eventually (gt_mem_nhds (show |h| < |h| + 1 by linarith)),
    l4.eventually (gt_mem_nhds (show μs / S * τ < μs / S * τ + 1 by linarith))] with k hk hmk htk hHk h4k
  have htk0 : 0 < t k := by
    have := mul_pos htk hk
    rwa [div_mul_cancel₀ _ hk.ne'] at this
  have hmk1 : ∀ y ∈ T, 1 ≤ m k y := by
    intro y hy
    have := mul_pos (hmk y hy) hk
    rw [div_mul_cancel₀ _ hk.ne'] at this
    exact_mod_cast this
  have hmk0 : ∀ y ∈ T, (0 : ℝ) < m k y := fun y hy => by exact_mod_cast hmk1 y hy
  set Mk : ℝ := ((∑ y ∈ T, m k y : ℕ) : ℝ) with hMk
  have hMk0 : 0 < Mk := by
    rw [hMk]; push_cast
    exact Finset.sum_pos hmk0 hne
  have hMsum : Mk = ∑ y ∈ T, (m k y : ℝ) := by rw [hMk]; push_cast; rfl
  have hτt : 0 < τ + t k := by linarith
  -- the error of Stirling's formula
  set E := ∑ y ∈ T, (Real.log (rising w (m k y)) - (m k y * Real.log (m k y) - m k y + (w - 1 / 2) * Real.log (m k y))) with hE
  have hEb : |E| ≤ T.card * C := by
    refine (Finset.abs_sum_le_sum_abs _ _).trans ((Finset.sum_le_sum (fun y hy => hC _ (hmk1 y hy))).trans (le_of_eq ?_))
    rw [Finset.sum_const, nsmul_eq_mul]
  set Lt := Real.log (τ + t k) - Real.log (t k) with hLt
  have hLt0 : 0 ≤ Lt := by
    rw [hLt, sub_nonneg]
    exact Real.log_le_log htk0 (by linarith)
  have hLt1 : Lt ≤ τ / t k := by
    rw [hLt, ← Real.log_div hτt.ne' htk0.ne']
    refine (Real.log_le_sub_one_of_pos (by positivity)).trans (le_of_eq ?_)
    field_simp
    ring
  have hMLt : |Mk * Lt| ≤ μs / S * τ + 1 := by
    rw [abs_of_nonneg (mul_nonneg hMk0.le hLt0)]
    refine (mul_le_mul_of_nonneg_left hLt1 hMk0.le).trans (le_trans (le_of_eq ?_) h4k.le)
    field_simp
  have key : Real.log (cellMarginal τ α w T (m k) (t k)) - (fitOf T (fun y => m k y) (t k) - T.card / 2 * Real.log (N k))
      = E + (∑ y ∈ T, (w - 1 / 2) * Real.log (m k y / N k) + Real.log ((α + Mk) / N k) - (α + 1) * Real.log ((τ + t k) / N k)
          + ((α + 1) * Real.log τ - Real.log α)) - Mk * Lt := by
    rw [(log_cellMarginal hτ hα hw T (m k) (ht k)).2]
    have e1 : ∑ y ∈ T, (w - 1 / 2) * Real.log (m k y / N k) = ∑ y ∈ T, (w - 1 / 2) * Real.log (m k y) - (α - T.card / 2) * Real.log (N k) := by
      have : ∀ y ∈ T, (w - 1 / 2) * Real.log ((m k y : ℝ) / N k) = (w - 1 / 2) * Real.log (m k y) - (w - 1 / 2) * Real.log (N k) := by
        intro y hy
        rw [Real.log_div (hmk0 y hy).ne' hk.ne']; ring
      rw [Finset.sum_congr rfl this, Finset.sum_sub_distrib, Finset.sum_const, nsmul_eq_mul, ← hTw]
      ring
    have e2 : fitOf T (fun y => (m k y : ℝ)) (t k) = ∑ y ∈ T, (m k y * Real.log (m k y) - m k y) - Mk * Real.log (t k) := by
      unfold fitOf
      rw [hMsum, Finset.sum_mul, ← Finset.sum_sub_distrib]
      refine Finset.sum_congr rfl (fun y hy => ?_)
      rw [Real.log_div (hmk0 y hy).ne' htk0.ne']; ring
    have e3 : E = ∑ y ∈ T, Real.log (rising w (m k y)) - ∑ y ∈ T, (m k y * Real.log (m k y) - m k y : ℝ) - ∑ y ∈ T, (w - 1 / 2) * Real.log (m k y) := by
      rw [hE, ← Finset.sum_sub_distrib, ← Finset.sum_sub_distrib]
      refine Finset.sum_congr rfl (fun y _ => by ring)
    rw [e1, e2, e3, Real.log_div (by positivity) hα.ne', Real.log_div (by positivity) hk.ne', Real.log_div hτt.ne' hk.ne', hLt]
    ring
  rw [key]
  refine (abs_sub _ _).trans (add_le_add ((abs_add_le _ _).trans (add_le_add hEb ?_)) hMLt)
  exact hHk.le

/-- How little the maximal likelihood gains when a cell in which all parts have nearly the same rate is split. -/
theorem fit_split_le {Z : Finset Nat} {m t : Nat → ℝ} {r : ℝ} (hr : 0 < r) (hm : ∀ z ∈ Z, 0 < m z) (ht : ∀ z ∈ Z, 0 < t z) (hZ : Z.Nonempty) :
    ∑ z ∈ Z, (m z * Real.log (m z / t z) - m z) - ((∑ z ∈ Z, m z) * Real.log ((∑ z ∈ Z, m z) / ∑ z ∈ Z, t z) - ∑ z ∈ Z, m z)
      ≤ ∑ z ∈ Z, (m z - r * t z) ^ 2 / (r * t z) := by
  set M := ∑ z ∈ Z, m z with hM
  set T := ∑ z ∈ Z, t z with hT
  have hM0 : 0 < M := Finset.sum_pos hm hZ
  have hT0 : 0 < T := Finset.sum_pos ht hZ
  have h1 : ∀ z ∈ Z, m z * Real.log (m z / t z) ≤ m z * Real.log r + (m z - r * t z) + (m z - r * t z) ^ 2 / (r * t z) := by
    intro z hz
    have hmz := hm z hz
    have htz := ht z hz
    have e : Real.log (m z / t z) = Real.log r + Real.log (m z / (r * t z)) := by
      rw [← Real.log_mul hr.ne' (by positivity)]
      congr 1
      field_simp
    have h2 := Real.log_le_sub_one_of_pos (show 0 < m z / (r * t z) by positivity)
    rw [e, mul_add, add_assoc]
    refine add_le_add_right ((mul_le_mul_of_nonneg_left h2 hmz.le).trans (le_of_eq ?_)) _
    field_simp
    ring
  have h2 : M * Real.log r + (M - r * T) ≤ M * Real.log (M / T) := by
    have e : Real.log (M / T) = Real.log r - Real.log (r * T / M) := by
      rw [← Real.log_div hr.ne' (by positivity)]
      congr 1
      field_simp
    have h3 := Real.log_le_sub_one_of_pos (show 0 < r * T / M by positivity)
    rw [e, mul_sub]
    have h4 := mul_le_mul_of_nonneg_left h3 hM0.le
    have h5 : M * (r * T / M - 1) = r * T - M := by field_simp
    linarith
  have h3 := Finset.sum_le_sum h1
  rw [Finset.sum_add_distrib, Finset.sum_add_distrib, ← Finset.sum_mul, Finset.sum_sub_distrib, ← Finset.mul_sum, ← hM, ← hT] at h3
  rw [Finset.sum_sub_distrib, ← hM]
  linarith

/-- Splitting a cell whose parts have the same rates, up to fluctuations of less than the root of `N log N`, costs likelihood. -/
theorem split_costs (hN : Tendsto N atTop atTop) {τ α w : ℝ} (hτ : 0 < τ) (hα : 0 < α) (hw : 0 < w) (Z T : Finset Nat) (hZ : 2 ≤ Z.card) (hTw : T.card * w = α)
    {m : Nat → ℕ → Nat → Nat} {t : Nat → ℕ → ℚ} (ht : ∀ z ∈ Z, ∀ k, 0 ≤ t z k) {ρ : Nat → ℝ} {S : Nat → ℝ} (hS : ∀ z ∈ Z, 0 < S z) (hρ : ∀ y ∈ T, 0 < ρ y)
    (hT : ∀ z ∈ Z, Tendsto (fun k => (t z k : ℝ) / N k) atTop (𝓝 (S z)))
    (hfl : ∀ z ∈ Z, ∀ y ∈ T, Tendsto (fun k => ((m z k y : ℝ) - ρ y * (t z k : ℝ)) ^ 2 / (N k * Real.log (N k))) atTop (𝓝 0)) :
    ∀ᶠ k in atTop, ∑ z ∈ Z, Real.log (cellMarginal τ α w T (m z k) (t z k)) <
      Real.log (cellMarginal τ α w T (fun y => ∑ z ∈ Z, m z k y) (∑ z ∈ Z, t z k : ℚ)) := by
  have hZne : Z.Nonempty := Finset.card_pos.1 (by omega)
  have hTne : T.Nonempty := by
    rw [Finset.nonempty_iff_ne_empty]
    rintro rfl
    simp at hTw
    exact hα.ne hTw
  have hlog : Tendsto (fun k => Real.log (N k)) atTop atTop := Real.tendsto_log_atTop.comp hN
  have hlogN : Tendsto (fun k => Real.log (N k) / N k) atTop (𝓝 0) := log_over hN
  -- the counts settle
  have hm : ∀ z ∈ Z, ∀ y ∈ T, Tendsto (fun k => (m z k y : ℝ) / N k) atTop (𝓝 (ρ y * S z)) := by
    intro z hz y hy
    have h1 : Tendsto (fun k => (((m z k y : ℝ) - ρ y * (t z k : ℝ)) / N k) ^ 2) atTop (𝓝 0) := by
      have := (hfl z hz y hy).mul hlogN
      rw [zero_mul] at this
      refine this.congr' ?_
      filter_upwards [hN.eventually_gt_atTop 0, hlog.eventually_gt_atTop 0] with k hk hl
      field_simp
    have h2 : Tendsto (fun k => ((m z k y : ℝ) - ρ y * (t z k : ℝ)) / N k) atTop (𝓝 0) := by
      have h3 := h1.sqrt
      rw [Real.sqrt_zero] at h3
      simp only [Real.sqrt_sq_eq_abs] at h3
      exact tendsto_zero_iff_abs_tendsto_zero _ |>.2 h3
    have := h2.add ((hT z hz).const_mul (ρ y))
    rw [zero_add] at this
    exact this.congr (fun k => by ring)
  -- second order expansions
  have hcell : ∀ z ∈ Z, ∃ C, ∀ᶠ k in atTop, |Real.log (cellMarginal τ α w T (m z k) (t z k)) - (fitOf T (fun y => m z k y) (t z k) - T.card / 2 * Real.log (N k))| ≤ C :=
    fun z hz => cell_second hN hτ hα hw T hTw (fun k => by exact_mod_cast ht z hz k) (hS z hz) (fun y hy => mul_pos (hρ y hy) (hS z hz)) (hm z hz) (hT z hz)
  obtain ⟨C', hwhole⟩ := cell_second hN hτ hα hw T hTw (m := fun k y => ∑ z ∈ Z, m z k y) (t := fun k => ((∑ z ∈ Z, t z k : ℚ) : ℝ))
    (fun k => by exact_mod_cast Finset.sum_nonneg (fun z hz => ht z hz k)) (S := ∑ z ∈ Z, S z) (μ := fun y => ∑ z ∈ Z, ρ y * S z) (Finset.sum_pos hS hZne)
    (fun y hy => Finset.sum_pos (fun z hz => mul_pos (hρ y hy) (hS z hz)) hZne)
    (fun y hy => by
      refine (tendsto_finsetSum Z (fun z hz => hm z hz y hy)).congr (fun k => ?_)
      push_cast
      rw [Finset.sum_div])
    (by
      refine (tendsto_finsetSum Z hT).congr (fun k => ?_)
      push_cast
      rw [Finset.sum_div])
  choose! C hC using hcell
  have hCall : ∀ᶠ k in atTop, ∀ z ∈ Z, |Real.log (cellMarginal τ α w T (m z k) (t z k)) - (fitOf T (fun y => m z k y) (t z k) - T.card / 2 * Real.log (N k))| ≤ C z := by
    rw [Filter.eventually_all_finset]
    exact hC
  -- the gain in fit
  have hgain : Tendsto (fun k => (∑ y ∈ T, ∑ z ∈ Z, ((m z k y : ℝ) - ρ y * (t z k : ℝ)) ^ 2 / (ρ y * (t z k : ℝ))) / Real.log (N k)) atTop (𝓝 0) := by
    have : Tendsto (fun k => ∑ y ∈ T, ∑ z ∈ Z, ((m z k y : ℝ) - ρ y * (t z k : ℝ)) ^ 2 / (N k * Real.log (N k)) / (ρ y * ((t z k : ℝ) / N k))) atTop
        (𝓝 (∑ y ∈ T, ∑ z ∈ Z, 0 / (ρ y * S z))) :=
      tendsto_finsetSum T (fun y hy => tendsto_finsetSum Z (fun z hz => (hfl z hz y hy).div ((hT z hz).const_mul _) (mul_pos (hρ y hy) (hS z hz)).ne'))
    simp only [zero_div, Finset.sum_const_zero] at this
    refine this.congr' ?_
    filter_upwards [hN.eventually_gt_atTop 0, hlog.eventually_gt_atTop 0] with k hk hl
    rw [Finset.sum_div]
    refine Finset.sum_congr rfl (fun y _ => ?_)
    rw [Finset.sum_div]
    refine Finset.sum_congr rfl (fun z _ => ?_)
    field_simp
  have hposm : ∀ᶠ k in atTop, ∀ z ∈ Z, ∀ y ∈ T, 0 < (m z k y : ℝ) / N k := by
    rw [Filter.eventually_all_finset]
    intro z hz
    rw [Filter.eventually_all_finset]
    exact fun y hy => (hm z hz y hy).eventually (lt_mem_nhds (mul_pos (hρ y hy) (hS z hz)))
  have hpost : ∀ᶠ k in atTop, ∀ z ∈ Z, 0 < (t z k : ℝ) / N k := by
    rw [Filter.eventually_all_finset]
    exact fun z hz => (hT z hz).eventually (lt_mem_nhds (hS z hz))
  have hTc : (1 : ℝ) ≤ T.card := by exact_mod_cast Finset.card_pos.2 hTne
  have hZc : (2 : ℝ) ≤ Z.card := by exact_mod_cast hZ
  filter_upwards [hN.eventually_gt_atTop 0, hCall, hwhole, hgain.eventually (gt_mem_nhds (show (0 : ℝ) < 1 / 4 by norm_num)), hposm, hpost,
    hlog.eventually_gt_atTop 0, hlog.eventually_gt_atTop (4 * (∑ z ∈ Z, C z + C'))] with k hk h1 h2 h3 h4 h5 hl hlC
  have hmp : ∀ z ∈ Z, ∀ y ∈ T, 0 < (m z k y : ℝ) := by
    intro z hz y hy
    have := mul_pos (h4 z hz y hy) hk
    rwa [div_mul_cancel₀ _ hk.ne'] at this
  have htp : ∀ z ∈ Z, 0 < (t z k : ℝ) := by
    intro z hz
    have := mul_pos (h5 z hz) hk
    rwa [div_mul_cancel₀ _ hk.ne'] at this
  rw [div_lt_iff₀ hl] at h3
  have hfit : ∑ z ∈ Z, fitOf T (fun y => m z k y) (t z k) - fitOf T (fun y => ((∑ z ∈ Z, m z k y : ℕ) : ℝ)) ((∑ z ∈ Z, t z k : ℚ) : ℝ)
      ≤ ∑ y ∈ T, ∑ z ∈ Z, ((m z k y : ℝ) - ρ y * (t z k : ℝ)) ^ 2 / (ρ y * (t z k : ℝ)) := by
    unfold fitOf
    rw [Finset.sum_comm, ← Finset.sum_sub_distrib]
    refine Finset.sum_le_sum (fun y hy => ?_)
    have := fit_split_le (Z := Z) (m := fun z => (m z k y : ℝ)) (t := fun z => (t z k : ℝ)) (hρ y hy) (fun z hz => hmp z hz y hy) htp hZne
    push_cast
    exact this
  have hsum : ∑ z ∈ Z, Real.log (cellMarginal τ α w T (m z k) (t z k)) ≤ ∑ z ∈ Z, (fitOf T (fun y => m z k y) (t z k) - T.card / 2 * Real.log (N k) + C z) :=
    Finset.sum_le_sum (fun z hz => by have := (abs_le.1 (h1 z hz)).2; linarith)
  rw [Finset.sum_add_distrib, Finset.sum_sub_distrib, Finset.sum_const, nsmul_eq_mul] at hsum
  have hw' := (abs_le.1 h2).1
  have hprod : (T.card : ℝ) / 2 * Real.log (N k) ≤ (Z.card - 1) * (T.card / 2 * Real.log (N k)) := by
    have : 0 ≤ (T.card : ℝ) / 2 * Real.log (N k) := by positivity
    nlinarith
  have hhalf : 1 / 2 * Real.log (N k) ≤ (T.card : ℝ) / 2 * Real.log (N k) := by nlinarith
  nlinarith

end

end PyCTBN
