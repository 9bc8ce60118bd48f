import Mathlib.MeasureTheory.Measure.Typeclasses.Probability
import Mathlib.MeasureTheory.OuterMeasure.BorelCantelli
import Mathlib.Analysis.SpecialFunctions.Pow.Asymptotics
import Mathlib.Analysis.PSeries

/-!
# Sums with exponential tails are almost surely smaller than `√(ε n log n)`
-/

open MeasureTheory Filter
open scoped ENNReal Topology

namespace PyCTBN.Blocks

noncomputable section

theorem pow_succ_sub (k q : ℕ) : (k + 1) ^ (q + 1) ≤ k ^ (q + 1) + (q + 1) * (k + 1) ^ q := by
  induction q with
  | zero => simp
  | succ q ih =>
    have h1 : k ^ (q + 1) ≤ (k + 1) ^ (q + 1) := Nat.pow_le_pow_left (Nat.le_succ k) _
    calc (k + 1) ^ (q + 1 + 1) = (k + 1) ^ (q + 1) * k + (k + 1) ^ (q + 1) := by ring
      _ ≤ (k ^ (q + 1) + (q + 1) * (k + 1) ^ q) * k + (k + 1) ^ (q + 1) := Nat.add_le_add_right (Nat.mul_le_mul_right k ih) _
      _ = k ^ (q + 1 + 1) + (q + 1) * ((k + 1) ^ q * k) + (k + 1) ^ (q + 1) := by ring
      _ ≤ k ^ (q + 1 + 1) + (q + 1) * ((k + 1) ^ q * (k + 1)) + (k + 1) ^ (q + 1) := by gcongr; omega
      _ = _ := by ring

theorem log_small (c : ℝ) : ∀ᶠ k : ℕ in atTop, c * Real.log k ≤ k := by
  have h := (Real.isLittleO_log_id_atTop.bound (show 0 < 1 / (|c| + 1) by positivity))
  filter_upwards [tendsto_natCast_atTop_atTop.eventually h, eventually_ge_atTop 1] with k hk hk1
  have hk1' : (1 : ℝ) ≤ k := by exact_mod_cast hk1
  have hl : 0 ≤ Real.log k := Real.log_nonneg hk1'
  rw [Real.norm_eq_abs, abs_of_nonneg hl, id, Real.norm_eq_abs, Nat.abs_cast, div_mul_eq_mul_div, one_mul, le_div_iff₀ (by positivity)] at hk
  calc c * Real.log k ≤ |c| * Real.log k := mul_le_mul_of_nonneg_right (le_abs_self c) hl
    _ ≤ Real.log k * (|c| + 1) := by nlinarith
    _ ≤ k := hk

/-- Borel-Cantelli with an eventual summable bound. -/
theorem borel_cantelli {Ω : Type} [MeasurableSpace Ω] {μ : Measure Ω} {E : ℕ → Set Ω} {G : ℝ} (h : ∀ᶠ k : ℕ in atTop, μ (E k) ≤ ENNReal.ofReal (G * ((k : ℝ) ^ 2)⁻¹)) :
    ∀ᵐ ω ∂μ, ∀ᶠ k in atTop, ω ∉ E k := by
  obtain ⟨k₀, h0⟩ := eventually_atTop.1 h
  have hs : Summable (fun k : ℕ => |G| * ((k : ℝ) ^ 2)⁻¹) := (Real.summable_nat_pow_inv.2 (by norm_num)).mul_left _
  have hfin : ∑' k, μ (if k₀ ≤ k then E k else ∅) ≠ ∞ := by
    refine ne_top_of_le_ne_top hs.tsum_ofReal_ne_top (ENNReal.tsum_le_tsum (fun k => ?_))
    split_ifs with hk
    · refine (h0 k hk).trans (ENNReal.ofReal_le_ofReal ?_)
      exact mul_le_mul_of_nonneg_right (le_abs_self G) (by positivity)
    · simp
  filter_upwards [ae_eventually_notMem hfin] with ω hω
  filter_upwards [hω, eventually_ge_atTop k₀] with k hk hk0
  rwa [if_pos hk0] at hk

variable {Ω : Type} [MeasurableSpace Ω] {μ : Measure Ω} {S : ℕ → Ω → ℝ} {B K θ₀ : ℝ}

/-- Sums whose increments over `j` steps have exponential moments bounded by `exp (B θ² j + K θ)` are almost surely smaller than `√(ε n log n)`. -/
theorem ae_small (hB : 0 < B) (hK : 0 ≤ K) (hθ₀ : 0 < θ₀) (h0 : ∀ᵐ ω ∂μ, S 0 ω = 0)
    (h : ∀ m j : ℕ, ∀ θ : ℝ, 0 ≤ θ → θ ≤ θ₀ → ∀ δ : ℝ, μ {ω | δ ≤ |S (m + j) ω - S m ω|} ≤ ENNReal.ofReal (2 * Real.exp (-(θ * δ) + B * θ ^ 2 * j + K * θ)))
    {ε : ℝ} (hε : 0 < ε) : ∀ᵐ ω ∂μ, ∀ᶠ n : ℕ in atTop, S n ω ^ 2 < ε * (n * Real.log n) := by
  obtain ⟨q, hq⟩ := exists_nat_gt (32 * B / ε)
  have hqB : 32 * B ≤ ε * (q + 1) := by
    rw [div_lt_iff₀ hε] at hq
    nlinarith
  let δ : ℕ → ℝ := fun k => Real.sqrt (ε * (k ^ (q + 1) * ((q + 1) * Real.log k))) / 2
  have hδsq : ∀ k : ℕ, 1 ≤ k → δ k ^ 2 = ε * (k ^ (q + 1) * ((q + 1) * Real.log k)) / 4 := by
    intro k hk
    have hl : 0 ≤ Real.log k := Real.log_nonneg (by exact_mod_cast hk)
    simp only [δ, div_pow]
    rw [Real.sq_sqrt (by positivity)]
    norm_num
  have hkpow : ∀ k : ℕ, 1 ≤ k → (k : ℝ) ≤ k ^ (q + 1) := fun k hk => by
    have : (1 : ℝ) ≤ k := by exact_mod_cast hk
    exact le_self_pow₀ this (by omega)
  have hexpl : ∀ (k : ℕ) (a : ℕ), 1 ≤ k → Real.exp (-(a * Real.log k)) = ((k : ℝ) ^ a)⁻¹ := fun k a hk => by
    have hk' : (0 : ℝ) < k := by exact_mod_cast hk
    rw [Real.exp_neg, ← Real.log_pow, Real.exp_log (by positivity)]
  -- the ends of the blocks
  have hends : ∀ᵐ ω ∂μ, ∀ᶠ k : ℕ in atTop, ω ∉ {ω | δ k ≤ |S (0 + k ^ (q + 1)) ω - S 0 ω|} := by
    refine borel_cantelli (G := 2 * Real.exp (K * θ₀)) ?_
    filter_upwards [log_small (ε * (q + 1) / (16 * B ^ 2 * θ₀ ^ 2)), eventually_ge_atTop 2] with k hlog hk2
    have hk1 : 1 ≤ k := by omega
    have hkp : (0 : ℝ) < k := by exact_mod_cast hk1
    have hl : 0 < Real.log k := Real.log_pos (by exact_mod_cast hk2)
    set M : ℝ := (k : ℝ) ^ (q + 1) with hM
    have hMp : 0 < M := by positivity
    have hδ0 : 0 ≤ δ k := by simp only [δ]; positivity
    set θ := δ k / (2 * B * M) with hθ
    have hθ0 : 0 ≤ θ := by positivity
    have hθle : θ ≤ θ₀ := by
      refine le_of_sq_le_sq ?_ hθ₀.le
      rw [hθ, div_pow, hδsq k hk1, div_le_iff₀ (by positivity)]
      have h2 : ε * (q + 1) * Real.log k ≤ 16 * B ^ 2 * θ₀ ^ 2 * k := by
        rw [div_mul_eq_mul_div, div_le_iff₀ (by positivity)] at hlog
        linarith
      have h3 : 16 * B ^ 2 * θ₀ ^ 2 * k ≤ 16 * B ^ 2 * θ₀ ^ 2 * M := mul_le_mul_of_nonneg_left (hkpow k hk1) (by positivity)
      calc ε * (M * ((q + 1) * Real.log k)) / 4 = M / 4 * (ε * (q + 1) * Real.log k) := by ring
        _ ≤ M / 4 * (16 * B ^ 2 * θ₀ ^ 2 * M) := mul_le_mul_of_nonneg_left (h2.trans h3) (by positivity)
        _ = _ := by ring
    refine (h 0 (k ^ (q + 1)) θ hθ0 hθle (δ k)).trans (ENNReal.ofReal_le_ofReal ?_)
    rw [mul_assoc 2 (Real.exp (K * θ₀))]
    refine mul_le_mul_of_nonneg_left ?_ zero_le_two
    rw [← hexpl k 2 hk1, ← Real.exp_add]
    refine Real.exp_le_exp.2 ?_
    have e : -(θ * δ k) + B * θ ^ 2 * ((k ^ (q + 1) : ℕ) : ℝ) = -(ε * (q + 1) * Real.log k / (16 * B)) := by
      have h1 : -(θ * δ k) + B * θ ^ 2 * ((k ^ (q + 1) : ℕ) : ℝ) = -(δ k ^ 2 / (4 * B * M)) := by
        push_cast
        rw [hθ, ← hM]
        field_simp
        ring
      rw [h1, hδsq k hk1, ← hM]
      field_simp
      ring
    have h4 : 2 * Real.log k ≤ ε * (q + 1) * Real.log k / (16 * B) := by
      rw [le_div_iff₀ (by positivity)]
      nlinarith
    have h5 : K * θ ≤ K * θ₀ := mul_le_mul_of_nonneg_left hθle hK
    rw [e]
    push_cast
    linarith
  -- within the blocks
  have hin : ∀ᵐ ω ∂μ, ∀ᶠ k : ℕ in atTop, ω ∉ ⋃ j ∈ Finset.range ((k + 1) ^ (q + 1) - k ^ (q + 1)), {ω | δ k ≤ |S (k ^ (q + 1) + j) ω - S (k ^ (q + 1)) ω|} := by
    refine borel_cantelli (G := 2 * Real.exp (1 + K * θ₀) * ((q + 1) * 2 ^ q)) ?_
    filter_upwards [log_small (4 * (q + 3) ^ 2 / (ε * (q + 1) * θ₀ ^ 2)), log_small (4 * B * (q + 3) ^ 2 * 2 ^ q / ε), eventually_ge_atTop 2] with k hlog1 hlog2 hk2
    have hk1 : 1 ≤ k := by omega
    have hkp : (0 : ℝ) < k := by exact_mod_cast hk1
    have hl : 0 < Real.log k := Real.log_pos (by exact_mod_cast hk2)
    set M : ℝ := (k : ℝ) ^ (q + 1) with hM
    have hMp : 0 < M := by positivity
    have hδp : 0 < δ k := by
      simp only [δ]
      exact div_pos (Real.sqrt_pos.2 (by positivity)) (by norm_num)
    have hD : (((k + 1) ^ (q + 1) - k ^ (q + 1) : ℕ) : ℝ) ≤ (q + 1) * 2 ^ q * k ^ q := by
      have h1 : (k + 1) ^ (q + 1) - k ^ (q + 1) ≤ (q + 1) * (k + 1) ^ q := by have := pow_succ_sub k q; omega
      have h2 : (k + 1) ^ q ≤ (2 * k) ^ q := Nat.pow_le_pow_left (by omega) q
      have h3 := h1.trans (Nat.mul_le_mul_left _ h2)
      calc (((k + 1) ^ (q + 1) - k ^ (q + 1) : ℕ) : ℝ) ≤ (((q + 1) * (2 * k) ^ q : ℕ) : ℝ) := by exact_mod_cast h3
        _ = _ := by push_cast; rw [mul_pow]; ring
    set θ := (q + 3) * Real.log k / δ k with hθ
    have hθ0 : 0 ≤ θ := by positivity
    have hθδ : θ * δ k = (q + 3) * Real.log k := by rw [hθ, div_mul_cancel₀ _ hδp.ne']
    have hθsq : θ ^ 2 = 4 * (q + 3) ^ 2 * Real.log k / (ε * (q + 1) * M) := by
      rw [hθ, div_pow, hδsq k hk1, ← hM]
      field_simp
    have hθle : θ ≤ θ₀ := by
      refine le_of_sq_le_sq ?_ hθ₀.le
      rw [hθsq, div_le_iff₀ (by positivity)]
      rw [div_mul_eq_mul_div, div_le_iff₀ (by positivity)] at hlog1
      calc 4 * (q + 3) ^ 2 * Real.log k ≤ k * (ε * (q + 1) * θ₀ ^ 2) := by linarith
        _ ≤ M * (ε * (q + 1) * θ₀ ^ 2) := mul_le_mul_of_nonneg_right (hkpow k hk1) (by positivity)
        _ = _ := by ring
    have hBθ : ∀ j ∈ Finset.range ((k + 1) ^ (q + 1) - k ^ (q + 1)), B * θ ^ 2 * j ≤ 1 := by
      intro j hj
      have hj' : (j : ℝ) ≤ (q + 1) * 2 ^ q * k ^ q := le_trans (by exact_mod_cast (Finset.mem_range.1 hj).le) hD
      calc B * θ ^ 2 * j ≤ B * θ ^ 2 * ((q + 1) * 2 ^ q * k ^ q) := mul_le_mul_of_nonneg_left hj' (by positivity)
        _ = 4 * B * (q + 3) ^ 2 * 2 ^ q / ε * Real.log k / k := by rw [hθsq, hM]; field_simp; rw [pow_succ]
        _ ≤ 1 := by rw [div_le_one hkp]; exact hlog2
    refine (measure_biUnion_finset_le _ _).trans ?_
    have hone : ∀ j ∈ Finset.range ((k + 1) ^ (q + 1) - k ^ (q + 1)), μ {ω | δ k ≤ |S (k ^ (q + 1) + j) ω - S (k ^ (q + 1)) ω|}
        ≤ ENNReal.ofReal (2 * Real.exp (1 + K * θ₀) * ((k : ℝ) ^ (q + 3))⁻¹) := by
      intro j hj
      refine (h _ j θ hθ0 hθle (δ k)).trans (ENNReal.ofReal_le_ofReal ?_)
      rw [mul_assoc 2 (Real.exp (1 + K * θ₀))]
      refine mul_le_mul_of_nonneg_left ?_ zero_le_two
      rw [← hexpl k (q + 3) hk1, ← Real.exp_add]
      refine Real.exp_le_exp.2 ?_
      have h1 := hBθ j hj
      have h5 : K * θ ≤ K * θ₀ := mul_le_mul_of_nonneg_left hθle hK
      rw [hθδ]
      push_cast
      linarith
    refine (Finset.sum_le_sum hone).trans ?_
    rw [Finset.sum_const, Finset.card_range, nsmul_eq_mul, ← ENNReal.ofReal_natCast, ← ENNReal.ofReal_mul (by positivity)]
    refine ENNReal.ofReal_le_ofReal ?_
    calc _ ≤ ((q + 1) * 2 ^ q * k ^ q) * (2 * Real.exp (1 + K * θ₀) * ((k : ℝ) ^ (q + 3))⁻¹) := mul_le_mul_of_nonneg_right hD (by positivity)
      _ = 2 * Real.exp (1 + K * θ₀) * ((q + 1) * 2 ^ q) * (((k : ℝ) ^ 2)⁻¹ * (k : ℝ)⁻¹) := by
        rw [pow_add]
        field_simp
      _ ≤ _ := by
        refine mul_le_mul_of_nonneg_left ?_ (by positivity)
        refine mul_le_of_le_one_right (by positivity) (inv_le_one_of_one_le₀ (by exact_mod_cast hk1))
  filter_upwards [h0, hends, hin] with ω w0 w1 w2
  obtain ⟨k₀, hk₀⟩ := eventually_atTop.1 (w1.and w2)
  filter_upwards [eventually_ge_atTop ((max k₀ 2) ^ (q + 1))] with n hn
  set k := Nat.findGreatest (fun k => k ^ (q + 1) ≤ n) n with hk
  have hkn : k ^ (q + 1) ≤ n := by
    have := Nat.findGreatest_spec (P := fun k => k ^ (q + 1) ≤ n) (Nat.zero_le n) (by simp)
    exact this
  have hkbig : max k₀ 2 ≤ k := Nat.le_findGreatest (le_trans (Nat.le_self_pow (by omega) _) hn) hn
  have hnk : n < (k + 1) ^ (q + 1) := by
    by_contra hcon
    push Not at hcon
    have : k + 1 ≤ k := Nat.le_findGreatest (le_trans (Nat.le_self_pow (by omega) _) hcon) hcon
    omega
  have hk2 : 2 ≤ k := (le_max_right _ _).trans hkbig
  obtain ⟨g1, g2⟩ := hk₀ k ((le_max_left _ _).trans hkbig)
  simp only [Set.mem_ofPred_eq, not_le, zero_add, w0, sub_zero] at g1
  simp only [Set.mem_iUnion, not_exists, Set.mem_ofPred_eq, not_le] at g2
  have g3 := g2 (n - k ^ (q + 1)) (Finset.mem_range.2 (by omega))
  rw [Nat.add_sub_cancel' hkn] at g3
  have g4 : |S n ω| < 2 * δ k := by
    have := abs_add_le (S n ω - S (k ^ (q + 1)) ω) (S (k ^ (q + 1)) ω)
    rw [sub_add_cancel] at this
    linarith
  have hδ0 : 0 ≤ δ k := by simp only [δ]; positivity
  have g5 : S n ω ^ 2 < 4 * δ k ^ 2 := by
    rw [← sq_abs]
    nlinarith [abs_nonneg (S n ω)]
  rw [hδsq k (by omega)] at g5
  refine g5.trans_le ?_
  have hkn' : (k : ℝ) ^ (q + 1) ≤ n := by exact_mod_cast hkn
  have hkp : (0 : ℝ) < k := by exact_mod_cast (show 0 < k by omega)
  have hlog : (q + 1) * Real.log k ≤ Real.log n := by
    have := Real.log_le_log (by positivity) hkn'
    rw [Real.log_pow] at this
    push_cast at this
    exact this
  have hl : 0 ≤ Real.log k := Real.log_nonneg (by exact_mod_cast (show 1 ≤ k by omega))
  have : (k : ℝ) ^ (q + 1) * ((q + 1) * Real.log k) ≤ n * Real.log n := mul_le_mul hkn' hlog (by positivity) (by positivity)
  nlinarith

end

end PyCTBN.Blocks
