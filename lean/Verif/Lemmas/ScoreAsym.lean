import Verif.Lemmas.FamScore
import Mathlib.Analysis.SpecialFunctions.Gamma.Beta
import Mathlib.Analysis.SpecialFunctions.Stirling

/-!
# Asymptotics of the marginal likelihood
-/

namespace PyCTBN
open Spec Filter Topology

/-- Stirling's formula for rising factorials, with a bounded error. -/
theorem log_rising_bounded {a : ℝ} (ha : 0 < a) :
    ∃ C, ∀ n : ℕ, 1 ≤ n → |Real.log (rising a n) - (n * Real.log n - n + (a - 1 / 2) * Real.log n)| ≤ C := by
  have hG := Real.GammaSeq_tendsto_Gamma a
  have hΓ := Real.Gamma_pos_of_pos ha
  have h1 : Tendsto (fun n => Real.log (Real.GammaSeq a n)) atTop (𝓝 (Real.log (Real.Gamma a))) :=
    (Real.continuousAt_log hΓ.ne').tendsto.comp hG
  have h2 : Tendsto (fun n => Real.log (Stirling.stirlingSeq n)) atTop (𝓝 (Real.log √Real.pi)) :=
    (Real.continuousAt_log (Real.sqrt_pos.2 Real.pi_pos).ne').tendsto.comp Stirling.tendsto_stirlingSeq_sqrt_pi
  have h3 : Tendsto (fun n : ℕ => Real.log (1 + a / n)) atTop (𝓝 (Real.log 1)) := by
    refine (Real.continuousAt_log one_ne_zero).tendsto.comp ?_
    have := (tendsto_const_div_atTop_nhds_zero_nat a).const_add 1
    simpa using this
  have h4 : Tendsto (fun n : ℕ => Real.log (Stirling.stirlingSeq n) + 1 / 2 * Real.log 2 - Real.log (Real.GammaSeq a n) - Real.log (1 + a / n)) atTop
      (𝓝 (Real.log √Real.pi + 1 / 2 * Real.log 2 - Real.log (Real.Gamma a) - Real.log 1)) :=
    ((h2.add_const _).sub h1).sub h3
  obtain ⟨C, hC⟩ := (Metric.isBounded_range_of_tendsto _ h4).exists_norm_le
  refine ⟨C, fun n hn => ?_⟩
  have hn0 : (0 : ℝ) < n := by exact_mod_cast hn
  have e : Real.log (rising a n) - (n * Real.log n - n + (a - 1 / 2) * Real.log n) =
      Real.log (Stirling.stirlingSeq n) + 1 / 2 * Real.log 2 - Real.log (Real.GammaSeq a n) - Real.log (1 + a / n) := by
    rw [Stirling.log_stirlingSeq_formula, Real.log_mul (by norm_num) hn0.ne', Real.log_div hn0.ne' (Real.exp_ne_zero _), Real.log_exp]
    have e1 : Real.GammaSeq a n = (n : ℝ) ^ a * n.factorial / (rising a n * (a + n)) := by
      unfold Real.GammaSeq rising
      rw [Finset.prod_range_succ]
    have hr := rising_pos ha n
    have hf : (0 : ℝ) < n.factorial := by exact_mod_cast n.factorial_pos
    have hp := Real.rpow_pos_of_pos hn0 a
    have han : (0 : ℝ) < a + n := by positivity
    have e2 : Real.log (1 + a / n) = Real.log (a + n) - Real.log n := by
      rw [← Real.log_div han.ne' hn0.ne']
      congr 1
      field_simp
      ring
    rw [e1, Real.log_div (by positivity) (by positivity), Real.log_mul (by positivity) (by positivity), Real.log_rpow hn0,
      Real.log_mul (by positivity) (by positivity), e2]
    ring
  rw [e]
  exact hC _ ⟨n, rfl⟩

/-! ## Expansions `Δ·k - E·log k + O(1)` -/

/-- `f k = Δ·k - E·log k + O(1)`. -/
def Expands (f : ℕ → ℝ) (Δ E : ℝ) : Prop := ∃ C, ∀ k : ℕ, 1 ≤ k → |f k - (k * Δ - E * Real.log k)| ≤ C

namespace Expands
variable {f g : ℕ → ℝ} {Δ E Δ' E' : ℝ}

theorem zero : Expands (fun _ => 0) 0 0 := ⟨0, fun k _ => by simp⟩

theorem add (h : Expands f Δ E) (h' : Expands g Δ' E') : Expands (fun k => f k + g k) (Δ + Δ') (E + E') := by
  obtain ⟨C, hC⟩ := h
  obtain ⟨C', hC'⟩ := h'
  refine ⟨C + C', fun k hk => ?_⟩
  have e : f k + g k - (k * (Δ + Δ') - (E + E') * Real.log k) = (f k - (k * Δ - E * Real.log k)) + (g k - (k * Δ' - E' * Real.log k)) := by ring
  rw [e]
  exact (abs_add_le _ _).trans (add_le_add (hC k hk) (hC' k hk))

theorem neg (h : Expands f Δ E) : Expands (fun k => -f k) (-Δ) (-E) := by
  obtain ⟨C, hC⟩ := h
  refine ⟨C, fun k hk => ?_⟩
  have e : -f k - (k * (-Δ) - (-E) * Real.log k) = -(f k - (k * Δ - E * Real.log k)) := by ring
  rw [e, abs_neg]
  exact hC k hk

theorem sub (h : Expands f Δ E) (h' : Expands g Δ' E') : Expands (fun k => f k - g k) (Δ - Δ') (E - E') := by
  simpa only [sub_eq_add_neg] using h.add h'.neg

theorem sum {ι : Type} (s : Finset ι) {f : ι → ℕ → ℝ} {Δ E : ι → ℝ} (h : ∀ i ∈ s, Expands (f i) (Δ i) (E i)) :
    Expands (fun k => ∑ i ∈ s, f i k) (∑ i ∈ s, Δ i) (∑ i ∈ s, E i) := by
  classical
  induction s using Finset.induction_on with
  | empty => simpa using zero
  | insert a s ha ih =>
    simp only [Finset.sum_insert ha]
    exact (h a (by simp)).add (ih (fun i hi => h i (by simp [hi])))

theorem listSum {ι : Type} (l : List ι) {f : ι → ℕ → ℝ} {Δ E : ι → ℝ} (h : ∀ i ∈ l, Expands (f i) (Δ i) (E i)) :
    Expands (fun k => (l.map (fun i => f i k)).sum) (l.map Δ).sum (l.map E).sum := by
  induction l with
  | nil => simpa using zero
  | cons a l ih =>
    simp only [List.map_cons, List.sum_cons]
    exact (h a (by simp)).add (ih (fun i hi => h i (by simp [hi])))

theorem congr (h : Expands f Δ E) (he : ∀ k, 1 ≤ k → g k = f k) : Expands g Δ E := by
  obtain ⟨C, hC⟩ := h
  exact ⟨C, fun k hk => by rw [he k hk]; exact hC k hk⟩

theorem bdd {C : ℝ} (h : ∀ k : ℕ, 1 ≤ k → |f k| ≤ C) : Expands f 0 0 := ⟨C, fun k hk => by simpa using h k hk⟩

theorem log_div_tendsto : Tendsto (fun k : ℕ => Real.log k / k) atTop (𝓝 0) := by
  have := Real.isLittleO_log_id_atTop.tendsto_div_nhds_zero
  exact this.comp tendsto_natCast_atTop_atTop

/-- A positive linear term wins. -/
theorem eventually_pos (h : Expands f Δ E) (hΔ : 0 < Δ) : ∀ᶠ k in atTop, 0 < f k := by
  obtain ⟨C, hC⟩ := h
  have h1 : Tendsto (fun k : ℕ => Δ - E * (Real.log k / k) - C / k) atTop (𝓝 (Δ - E * 0 - 0)) :=
    (tendsto_const_nhds.sub (log_div_tendsto.const_mul E)).sub (tendsto_const_div_atTop_nhds_zero_nat C)
  rw [mul_zero, sub_zero, sub_zero] at h1
  filter_upwards [h1.eventually (lt_mem_nhds hΔ), eventually_ge_atTop 1] with k hk hk1
  have hk0 : (0 : ℝ) < k := by exact_mod_cast hk1
  have := (abs_le.1 (hC k hk1)).1
  have e : k * (Δ - E * (Real.log k / k) - C / k) = k * Δ - E * Real.log k - C := by field_simp
  have h2 := mul_pos hk0 hk
  rw [e] at h2
  linarith

/-- Without a linear term, the logarithmic one decides. -/
theorem eventually_neg (h : Expands f 0 E) (hE : 0 < E) : ∀ᶠ k in atTop, f k < 0 := by
  obtain ⟨C, hC⟩ := h
  have h1 : Tendsto (fun k : ℕ => E * Real.log k) atTop atTop :=
    (Real.tendsto_log_atTop.comp tendsto_natCast_atTop_atTop).const_mul_atTop hE
  filter_upwards [h1.eventually_gt_atTop C, eventually_ge_atTop 1] with k hk hk1
  have := (abs_le.1 (hC k hk1)).2
  linarith

end Expands

/-! ## One cell: a state of the variable and an assignment of its parents -/

/-- The marginal likelihood of what is observed in one cell. -/
noncomputable def cellMarginal (τ α w : ℝ) (T : Finset Nat) (m : Nat → Nat) (t : ℝ) : ℝ :=
  exitMarginal τ α (∑ y ∈ T, m y) t * targetMarginal α w T m

theorem log_cellMarginal {τ α w : ℝ} (hτ : 0 < τ) (hα : 0 < α) (hw : 0 < w) (T : Finset Nat) (m : Nat → Nat) {t : ℝ} (ht : 0 ≤ t) :
    0 < cellMarginal τ α w T m t ∧
    Real.log (cellMarginal τ α w T m t) = ∑ y ∈ T, Real.log (rising w (m y)) + Real.log ((α + (∑ y ∈ T, m y : ℕ)) / α) + (α + 1) * Real.log τ
      - (α + 1 + (∑ y ∈ T, m y : ℕ)) * Real.log (τ + t) := by
  set M := ∑ y ∈ T, m y with hM
  have h2 : (0 : ℝ) < τ + t := by positivity
  have hα1 : (0 : ℝ) < α + 1 := by positivity
  have g1 : 0 < Real.Gamma (α + 1) := Real.Gamma_pos_of_pos hα1
  have g0 : 0 < Real.Gamma α := Real.Gamma_pos_of_pos hα
  have hr0 := rising_pos hα M
  have hr1 := rising_pos hα1 M
  have hp : 0 < ∏ y ∈ T, rising w (m y) := Finset.prod_pos (fun y _ => rising_pos hw _)
  have hτp := Real.rpow_pos_of_pos hτ (α + 1)
  have htp := Real.rpow_pos_of_pos h2 (α + M + 1)
  have haM : (0 : ℝ) < α + M := by positivity
  -- the two rising factorials differ by one factor
  have hrr : rising (α + 1) M = rising α M * ((α + M) / α) := by
    have a1 := gamma_rising hα1 M
    have a2 := gamma_rising hα M
    have a3 : Real.Gamma (α + 1 + M) = (α + M) * Real.Gamma (α + M) := by
      rw [show α + 1 + (M : ℝ) = (α + M) + 1 by ring, Real.Gamma_add_one haM.ne']
    rw [Real.Gamma_add_one hα.ne', a3, a2] at a1
    field_simp
    have := mul_left_cancel₀ g0.ne' (show Real.Gamma α * ((α + M) * rising α M) = Real.Gamma α * (α * rising (α + 1) M) by linarith)
    linarith
  have e : cellMarginal τ α w T m t = (∏ y ∈ T, rising w (m y)) * ((α + M) / α) * τ ^ (α + 1) * ((τ + t) ^ (α + M + 1))⁻¹ := by
    unfold cellMarginal targetMarginal
    rw [← hM, exitMarginal_closed hτ hα ht, one_div, Real.inv_rpow h2.le, show α + (M : ℝ) + 1 = α + 1 + M by ring, gamma_rising hα1 M, hrr]
    field_simp
  have hq : 0 < (α + M) / α := by positivity
  rw [e]
  refine ⟨by positivity, ?_⟩
  rw [Real.log_mul (by positivity) (by positivity), Real.log_mul (by positivity) (by positivity), Real.log_mul hp.ne' hq.ne', Real.log_inv,
    Real.log_rpow hτ, Real.log_rpow h2, Real.log_prod (fun y _ => (rising_pos hw _).ne')]
  ring

/-- The linear coefficient: the maximal log likelihood. -/
noncomputable def cellFit (T : Finset Nat) (m : Nat → Nat) (t : ℝ) : ℝ :=
  ∑ y ∈ T, ((m y : ℝ) * Real.log (m y) - m y - m y * Real.log t)

/-- The logarithmic coefficient: the price of the parameters of a cell. -/
noncomputable def cellPrice (α w : ℝ) (T : Finset Nat) (m : Nat → Nat) (t : ℝ) : ℝ :=
  if t = 0 then 0 else if ∑ y ∈ T, m y = 0 then α + 1 else α + ∑ y ∈ T, (if m y = 0 then 0 else 1 / 2 - w)

theorem expands_rising {a : ℝ} (ha : 0 < a) (m : Nat) :
    Expands (fun k => Real.log (rising a (k * m)) - k * m * Real.log k) (m * Real.log m - m) (if m = 0 then 0 else 1 / 2 - a) := by
  by_cases hm : m = 0
  · subst hm
    refine ⟨0, fun k _ => ?_⟩
    simp [rising]
  · rw [if_neg hm]
    obtain ⟨C, hC⟩ := log_rising_bounded ha
    have hm0 : (0 : ℝ) < m := by exact_mod_cast Nat.pos_of_ne_zero hm
    refine ⟨C + |(a - 1 / 2) * Real.log m|, fun k hk => ?_⟩
    have hk0 : (0 : ℝ) < k := by exact_mod_cast hk
    have h := hC (k * m) (Nat.one_le_iff_ne_zero.2 (Nat.mul_ne_zero (by omega) hm))
    push_cast at h
    rw [Real.log_mul hk0.ne' hm0.ne'] at h
    have e : Real.log (rising a (k * m)) - k * m * Real.log k - (k * (m * Real.log m - m) - (1 / 2 - a) * Real.log k) =
        (Real.log (rising a (k * m)) - (k * m * (Real.log k + Real.log m) - k * m + (a - 1 / 2) * (Real.log k + Real.log m))) +
          (a - 1 / 2) * Real.log m := by ring
    rw [e]
    exact (abs_add_le _ _).trans (add_le_add h le_rfl)

theorem expands_exits {α : ℝ} (hα : 0 < α) (M : Nat) :
    Expands (fun k => Real.log ((α + (k * M : ℕ)) / α)) 0 (if M = 0 then 0 else -1) := by
  by_cases hM : M = 0
  · subst hM
    refine ⟨0, fun k _ => ?_⟩
    simp [hα.ne']
  · rw [if_neg hM]
    have hM0 : (0 : ℝ) < M := by exact_mod_cast Nat.pos_of_ne_zero hM
    refine ⟨|Real.log (α + M)| + |Real.log M| + |Real.log α|, fun k hk => ?_⟩
    have hk1 : (1 : ℝ) ≤ k := by exact_mod_cast hk
    have hk0 : (0 : ℝ) < k := by linarith
    push_cast
    rw [Real.log_div (by positivity) hα.ne']
    have u1 : Real.log (α + k * M) ≤ Real.log k + Real.log (α + M) := by
      rw [← Real.log_mul hk0.ne' (by positivity)]
      refine Real.log_le_log (by positivity) ?_
      nlinarith
    have u2 : Real.log k + Real.log M ≤ Real.log (α + k * M) := by
      rw [← Real.log_mul hk0.ne' hM0.ne']
      exact Real.log_le_log (by positivity) (by linarith)
    rw [abs_le]
    have a1 := le_abs_self (Real.log (α + M))
    have a2 := neg_abs_le (Real.log (α + M))
    have a3 := le_abs_self (Real.log M)
    have a4 := neg_abs_le (Real.log (M : ℝ))
    have a5 := le_abs_self (Real.log α)
    have a6 := neg_abs_le (Real.log α)
    have a7 := abs_nonneg (Real.log (α + M))
    have a8 := abs_nonneg (Real.log (M : ℝ))
    constructor <;> linarith

theorem expands_time {τ α t : ℝ} (hτ : 0 < τ) (hα : 0 < α) (ht : 0 < t) (M : Nat) :
    Expands (fun k => (α + 1 + (k * M : ℕ)) * Real.log (τ + k * t) - k * M * Real.log k) (M * Real.log t) (-(α + 1)) := by
  refine ⟨(α + 1) * |Real.log t| + (α + 1 + M) * (τ / t), fun k hk => ?_⟩
  have hk1 : (1 : ℝ) ≤ k := by exact_mod_cast hk
  have hk0 : (0 : ℝ) < k := by linarith
  have hM0 : (0 : ℝ) ≤ M := by positivity
  have hkt : 0 < k * t := by positivity
  push_cast
  obtain ⟨r, hr⟩ : ∃ r, r = Real.log (τ + k * t) - Real.log (k * t) := ⟨_, rfl⟩
  have hr0 : 0 ≤ r := by
    rw [hr, sub_nonneg]
    exact Real.log_le_log hkt (by linarith)
  have hr1 : r ≤ τ / (k * t) := by
    rw [hr, ← Real.log_div (by positivity) hkt.ne']
    have := Real.log_le_sub_one_of_pos (show 0 < (τ + k * t) / (k * t) by positivity)
    have e : (τ + k * t) / (k * t) - 1 = τ / (k * t) := by field_simp; ring
    rwa [e] at this
  have e1 : Real.log (τ + k * t) = Real.log k + Real.log t + r := by
    rw [hr, Real.log_mul hk0.ne' ht.ne']; ring
  have e2 : (α + 1 + k * M) * Real.log (τ + k * t) - k * M * Real.log k - (k * (M * Real.log t) - -(α + 1) * Real.log k) =
      (α + 1) * Real.log t + (α + 1 + k * M) * r := by rw [e1]; ring
  rw [e2]
  have h3 : (α + 1 + k * M) * r ≤ (α + 1 + M) * (τ / t) := by
    have h4 : (α + 1 + k * M) ≤ k * (α + 1 + M) := by nlinarith
    calc (α + 1 + k * M) * r ≤ (k * (α + 1 + M)) * (τ / (k * t)) := mul_le_mul h4 hr1 hr0 (by positivity)
      _ = _ := by field_simp
  have h5 : 0 ≤ (α + 1 + k * M) * r := by positivity
  refine (abs_add_le _ _).trans ?_
  rw [abs_mul, abs_of_pos (by positivity : 0 < α + 1), abs_of_nonneg h5]
  linarith

/-- The expansion of one cell. -/
theorem expands_cell {τ α w t : ℝ} (hτ : 0 < τ) (hα : 0 < α) (hw : 0 < w) (T : Finset Nat) (m : Nat → Nat) (ht : 0 ≤ t)
    (hz : t = 0 → ∀ y ∈ T, m y = 0) :
    Expands (fun k => Real.log (cellMarginal τ α w T (fun y => k * m y) (k * t))) (cellFit T m t) (cellPrice α w T m t) := by
  have hlog : ∀ k : ℕ, Real.log (cellMarginal τ α w T (fun y => k * m y) (k * t)) =
      ∑ y ∈ T, Real.log (rising w (k * m y)) + Real.log ((α + (k * ∑ y ∈ T, m y : ℕ)) / α) + (α + 1) * Real.log τ
      - (α + 1 + (k * ∑ y ∈ T, m y : ℕ)) * Real.log (τ + k * t) := by
    intro k
    rw [(log_cellMarginal hτ hα hw T (fun y => k * m y) (by positivity : 0 ≤ k * t)).2, ← Finset.mul_sum]
  by_cases h0 : t = 0
  · subst h0
    have hz' := hz rfl
    have hs : ∑ y ∈ T, m y = 0 := Finset.sum_eq_zero hz'
    have e1 : cellFit T m 0 = 0 := by
      unfold cellFit
      exact Finset.sum_eq_zero (fun y hy => by simp [hz' y hy])
    rw [e1, cellPrice, if_pos rfl]
    refine Expands.zero.congr (fun k _ => ?_)
    rw [hlog k, hs]
    have : ∑ y ∈ T, Real.log (rising w (k * m y)) = 0 := Finset.sum_eq_zero (fun y hy => by simp [hz' y hy, rising])
    rw [this]
    simp [hα.ne']
  · have htp : 0 < t := lt_of_le_of_ne ht (Ne.symm h0)
    have h1 := (Expands.sum T (fun y _ => expands_rising hw (m y))).add (expands_exits hα (∑ y ∈ T, m y))
    have h2 := (h1.add (Expands.bdd (f := fun _ => (α + 1) * Real.log τ) (fun _ _ => le_rfl))).sub (expands_time hτ hα htp (∑ y ∈ T, m y))
    have e1 : cellFit T m t = ∑ y ∈ T, ((m y : ℝ) * Real.log (m y) - m y) + 0 + 0 - (∑ y ∈ T, m y : ℕ) * Real.log t := by
      unfold cellFit
      rw [Finset.sum_sub_distrib, add_zero, add_zero]
      push_cast
      rw [Finset.sum_mul]
    have e2 : cellPrice α w T m t = ∑ y ∈ T, (if m y = 0 then 0 else 1 / 2 - w) + (if ∑ y ∈ T, m y = 0 then 0 else -1) + 0 - -(α + 1) := by
      unfold cellPrice
      rw [if_neg h0]
      by_cases hs : ∑ y ∈ T, m y = 0
      · have hz' : ∀ y ∈ T, m y = 0 := fun y hy => (Finset.sum_eq_zero_iff.1 hs) y hy
        rw [if_pos hs, if_pos hs, Finset.sum_eq_zero (fun y hy => by simp [hz' y hy])]
        ring
      · rw [if_neg hs, if_neg hs]
        ring
    rw [e1, e2]
    refine h2.congr (fun k _ => ?_)
    rw [hlog k]
    simp only [Finset.sum_sub_distrib]
    push_cast
    rw [← Finset.sum_mul, ← Finset.mul_sum]
    ring

end PyCTBN
