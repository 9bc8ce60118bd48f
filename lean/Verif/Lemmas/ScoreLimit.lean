import Verif.Lemmas.ScoreSplit

/-!
# The marginal likelihood of growing data, to first order
-/

namespace PyCTBN
open Spec Filter Topology

section
variable {N : ℕ → ℝ}

theorem log_over (hN : Tendsto N atTop atTop) : Tendsto (fun k => Real.log (N k) / N k) atTop (𝓝 0) :=
  Real.isLittleO_log_id_atTop.tendsto_div_nhds_zero.comp hN

theorem inv_over (hN : Tendsto N atTop atTop) (C : ℝ) : Tendsto (fun k => C / N k) atTop (𝓝 0) := hN.const_div_atTop C

/-- What grows at most like `N` has a logarithm that is negligible. -/
theorem log_one_add_over (hN : Tendsto N atTop atTop) {x : ℕ → ℝ} (hx : ∀ k, 0 ≤ x k) {a : ℝ} (h : Tendsto (fun k => x k / N k) atTop (𝓝 a)) :
    Tendsto (fun k => Real.log (1 + x k) / N k) atTop (𝓝 0) := by
  have h1 : Tendsto (fun k => Real.log (N k) / N k + Real.log (|a| + 2) / N k) atTop (𝓝 (0 + 0)) := (log_over hN).add (inv_over hN _)
  rw [add_zero] at h1
  refine tendsto_of_tendsto_of_tendsto_of_le_of_le' tendsto_const_nhds h1 ?_ ?_
  · filter_upwards [hN.eventually_gt_atTop 0] with k hk
    exact div_nonneg (Real.log_nonneg (by linarith [hx k])) hk.le
  · have h2 : ∀ᶠ k in atTop, x k / N k < |a| + 1 := h.eventually (gt_mem_nhds (by linarith [le_abs_self a]))
    filter_upwards [hN.eventually_ge_atTop 1, h2] with k hk hk2
    have hk0 : 0 < N k := by linarith
    have h3 : x k < (|a| + 1) * N k := by rwa [div_lt_iff₀ hk0] at hk2
    rw [← add_div, ← Real.log_mul hk0.ne' (by positivity)]
    refine div_le_div_of_nonneg_right (Real.log_le_log (by linarith [hx k]) ?_) hk0.le
    nlinarith [abs_nonneg a]

theorem rising_over (hN : Tendsto N atTop atTop) {w : ℝ} (hw : 0 < w) {m : ℕ → ℕ} {μ : ℝ} (h : Tendsto (fun k => (m k : ℝ) / N k) atTop (𝓝 μ)) :
    Tendsto (fun k => Real.log (rising w (m k)) / N k - (m k / N k) * Real.log (N k)) atTop (𝓝 (μ * Real.log μ - μ)) := by
  obtain ⟨C, hC⟩ := log_rising_bounded hw
  have hC0 : 0 ≤ C := (abs_nonneg _).trans (hC 1 le_rfl)
  have hlim : Tendsto (fun k => (m k / N k) * Real.log (m k / N k) - m k / N k) atTop (𝓝 (μ * Real.log μ - μ)) :=
    ((Real.continuous_mul_log.tendsto μ).comp h).sub h
  have herr : Tendsto (fun k => C / N k + |w - 1 / 2| * (Real.log (1 + m k) / N k)) atTop (𝓝 (0 + |w - 1 / 2| * 0)) :=
    (inv_over hN C).add ((log_one_add_over hN (fun k => Nat.cast_nonneg (m k)) h).const_mul _)
  rw [mul_zero, add_zero] at herr
  have hd : Tendsto (fun k => (Real.log (rising w (m k)) / N k - (m k / N k) * Real.log (N k)) - ((m k / N k) * Real.log (m k / N k) - m k / N k)) atTop (𝓝 0) := by
    refine squeeze_zero_norm' ?_ herr
    filter_upwards [hN.eventually_gt_atTop 0] with k hk
    rw [Real.norm_eq_abs]
    by_cases hm : m k = 0
    · simp only [hm, rising, Finset.range_zero, Finset.prod_empty, Real.log_one, Nat.cast_zero, zero_div, zero_mul, sub_zero, abs_zero, add_zero, mul_zero]
      positivity
    · have hm1 : 1 ≤ m k := Nat.one_le_iff_ne_zero.2 hm
      have hm0 : (1 : ℝ) ≤ m k := by exact_mod_cast hm1
      have e : (Real.log (rising w (m k)) / N k - (m k / N k) * Real.log (N k)) - ((m k / N k) * Real.log (m k / N k) - m k / N k) =
          ((Real.log (rising w (m k)) - (m k * Real.log (m k) - m k + (w - 1 / 2) * Real.log (m k))) + (w - 1 / 2) * Real.log (m k)) / N k := by
        rw [Real.log_div (by positivity) hk.ne']
        field_simp
        ring
      rw [e, abs_div, abs_of_pos hk, ← mul_div_assoc, ← add_div]
      refine div_le_div_of_nonneg_right ?_ hk.le
      refine (abs_add_le _ _).trans (add_le_add (hC _ hm1) ?_)
      rw [abs_mul]
      refine mul_le_mul_of_nonneg_left ?_ (abs_nonneg _)
      rw [abs_of_nonneg (Real.log_nonneg hm0)]
      exact Real.log_le_log (by linarith) (by linarith)
  have := hd.add hlim
  rw [zero_add] at this
  refine this.congr (fun k => by ring)

/-- The maximal log likelihood per unit of data of a cell in which a share `T` of the time is spent and `μ y` transitions to `y` are made. -/
noncomputable def realFit (T : Finset Nat) (μ : Nat → ℝ) (t : ℝ) : ℝ := ∑ y ∈ T, (μ y * Real.log (μ y) - μ y - μ y * Real.log t)

theorem cell_over (hN : Tendsto N atTop atTop) {τ α w : ℝ} (hτ : 0 < τ) (hα : 0 < α) (hw : 0 < w) (T : Finset Nat) {m : ℕ → Nat → Nat} {t : ℕ → ℝ}
    (ht : ∀ k, 0 ≤ t k) {μ : Nat → ℝ} {S : ℝ} (hS : 0 < S) (hm : ∀ y ∈ T, Tendsto (fun k => (m k y : ℝ) / N k) atTop (𝓝 (μ y)))
    (hT : Tendsto (fun k => t k / N k) atTop (𝓝 S)) :
    Tendsto (fun k => Real.log (cellMarginal τ α w T (m k) (t k)) / N k) atTop (𝓝 (realFit T μ S)) := by
  have hM : Tendsto (fun k => ((∑ y ∈ T, m k y : ℕ) : ℝ) / N k) atTop (𝓝 (∑ y ∈ T, μ y)) := by
    refine (tendsto_finsetSum T hm).congr (fun k => ?_)
    push_cast
    rw [Finset.sum_div]
  have hrise : Tendsto (fun k => ∑ y ∈ T, (Real.log (rising w (m k y)) / N k - (m k y / N k) * Real.log (N k))) atTop
      (𝓝 (∑ y ∈ T, (μ y * Real.log (μ y) - μ y))) := tendsto_finsetSum T (fun y hy => rising_over hN hw (hm y hy))
  have hex : Tendsto (fun k => Real.log ((α + (∑ y ∈ T, m k y : ℕ)) / α) / N k) atTop (𝓝 0) := by
    have h1 : Tendsto (fun k => (((∑ y ∈ T, m k y : ℕ) : ℝ) / α) / N k) atTop (𝓝 ((∑ y ∈ T, μ y) / α)) := by
      refine (hM.div_const α).congr (fun k => ?_)
      rw [div_right_comm]
    refine (log_one_add_over hN (fun k => by positivity) h1).congr (fun k => ?_)
    congr 2
    field_simp
  have htau : Tendsto (fun k => (τ + t k) / N k) atTop (𝓝 S) := by
    have := (inv_over hN τ).add hT
    rw [zero_add] at this
    exact this.congr (fun k => by rw [add_div])
  have hlogt : Tendsto (fun k => Real.log ((τ + t k) / N k)) atTop (𝓝 (Real.log S)) := (Real.continuousAt_log hS.ne').tendsto.comp htau
  have hl2 : Tendsto (fun k => (α + 1) * (Real.log (N k) / N k + Real.log ((τ + t k) / N k) / N k)) atTop (𝓝 ((α + 1) * (0 + 0))) := by
    refine ((log_over hN).add ?_).const_mul _
    exact hlogt.div_atTop hN
  rw [add_zero, mul_zero] at hl2
  have hmain := (((hrise.add hex).add (inv_over hN ((α + 1) * Real.log τ))).sub hl2).sub (hM.mul hlogt)
  have e1 : ∑ y ∈ T, (μ y * Real.log (μ y) - μ y) + 0 + 0 - 0 - (∑ y ∈ T, μ y) * Real.log S = realFit T μ S := by
    unfold realFit
    rw [Finset.sum_sub_distrib (g := fun y => μ y * Real.log S), ← Finset.sum_mul]
    ring
  rw [e1] at hmain
  refine hmain.congr' ?_
  filter_upwards [hN.eventually_gt_atTop 0] with k hk
  have hτt : 0 < τ + t k := by linarith [ht k]
  rw [(log_cellMarginal hτ hα hw T (m k) (ht k)).2, Finset.sum_sub_distrib, ← Finset.sum_mul, ← Finset.sum_div, ← Finset.sum_div, Real.log_div hτt.ne' hk.ne']
  push_cast
  field_simp
  ring

/-- Splitting a cell gains fit if rates differ. -/
theorem realFit_gain {Z T : Finset Nat} {m : Nat → Nat → ℝ} {t : Nat → ℝ} (hm : ∀ z ∈ Z, ∀ y ∈ T, 0 ≤ m z y) (ht : ∀ z ∈ Z, 0 ≤ t z)
    (h0 : ∀ z ∈ Z, t z = 0 → ∀ y ∈ T, m z y = 0) :
    0 ≤ ∑ z ∈ Z, realFit T (m z) (t z) - realFit T (fun y => ∑ z ∈ Z, m z y) (∑ z ∈ Z, t z) ∧
    (∀ y ∈ T, ∀ z ∈ Z, ∀ z' ∈ Z, 0 < t z → 0 < t z' → m z y / t z ≠ m z' y / t z' →
      0 < ∑ z ∈ Z, realFit T (m z) (t z) - realFit T (fun y => ∑ z ∈ Z, m z y) (∑ z ∈ Z, t z)) := by
  let gain := fun y => ∑ z ∈ Z, (m z y * Real.log (m z y) - m z y * Real.log (t z)) -
    ((∑ z ∈ Z, m z y) * Real.log (∑ z ∈ Z, m z y) - (∑ z ∈ Z, m z y) * Real.log (∑ z ∈ Z, t z))
  have hsum : ∑ z ∈ Z, realFit T (m z) (t z) - realFit T (fun y => ∑ z ∈ Z, m z y) (∑ z ∈ Z, t z) = ∑ y ∈ T, gain y := by
    unfold realFit
    rw [Finset.sum_comm, ← Finset.sum_sub_distrib]
    refine Finset.sum_congr rfl (fun y _ => ?_)
    simp only [gain, Finset.sum_sub_distrib]
    ring
  have hg : ∀ y ∈ T, 0 ≤ gain y ∧ ∀ z ∈ Z, ∀ z' ∈ Z, 0 < t z → 0 < t z' → m z y / t z ≠ m z' y / t z' → 0 < gain y := by
    intro y hy
    by_cases hM : ∑ z ∈ Z, m z y = 0
    · have hz : ∀ z ∈ Z, m z y = 0 := fun z hz => (Finset.sum_eq_zero_iff_of_nonneg (fun z hz => hm z hz y hy)).1 hM z hz
      constructor
      · simp only [gain]
        rw [hM, Finset.sum_eq_zero (fun z h => by simp [hz z h])]
        simp
      · intro z h z' h' _ _ hne
        simp [hz z h, hz z' h'] at hne
    · have hMp : 0 < ∑ z ∈ Z, m z y := lt_of_le_of_ne (Finset.sum_nonneg (fun z hz => hm z hz y hy)) (Ne.symm hM)
      have hS : 0 < ∑ z ∈ Z, t z := by
        obtain ⟨z, hz, hzm⟩ : ∃ z ∈ Z, m z y ≠ 0 := by
          by_contra hcon
          push Not at hcon
          exact hM (Finset.sum_eq_zero hcon)
        exact Finset.sum_pos' ht ⟨z, hz, lt_of_le_of_ne (ht z hz) (fun h => hzm (h0 z hz h.symm y hy))⟩
      have e : gain y = ∑ z ∈ Z, (m z y * Real.log (m z y) - m z y * Real.log (t z) - m z y * (Real.log (∑ z ∈ Z, m z y) - Real.log (∑ z ∈ Z, t z))) := by
        simp only [gain]
        rw [Finset.sum_sub_distrib (g := fun z => m z y * (Real.log (∑ z ∈ Z, m z y) - Real.log (∑ z ∈ Z, t z))), ← Finset.sum_mul]
        ring
      have es : ∑ z ∈ Z, (m z y - t z * ((∑ z ∈ Z, m z y) / ∑ z ∈ Z, t z)) = 0 := by
        rw [Finset.sum_sub_distrib, ← Finset.sum_mul]
        field_simp
        ring
      have term := fun z (hz : z ∈ Z) => log_gain_term (hm z hz y hy) (ht z hz) (fun h => h0 z hz h y hy) hMp hS
      refine ⟨by rw [e, ← es]; exact Finset.sum_le_sum (fun z hz => (term z hz).1), fun z hz z' hz' hp hp' hne => ?_⟩
      rw [e, ← es]
      by_cases h1 : m z y / t z = (∑ z ∈ Z, m z y) / ∑ z ∈ Z, t z
      · exact Finset.sum_lt_sum (fun z hz => (term z hz).1) ⟨z', hz', (term z' hz').2 hp' (fun h => hne (h1.trans h.symm))⟩
      · exact Finset.sum_lt_sum (fun z hz => (term z hz).1) ⟨z, hz, (term z hz).2 hp h1⟩
  rw [hsum]
  exact ⟨Finset.sum_nonneg (fun y hy => (hg y hy).1), fun y hy z hz z' hz' hp hp' hne =>
    Finset.sum_pos' (fun y hy => (hg y hy).1) ⟨y, hy, (hg y hy).2 z hz z' hz' hp hp' hne⟩⟩

end

end PyCTBN
