import Verif.Props.StrongConsistency

/-!
# Exponentially small probabilities of wrong estimates: C223
-/

open MeasureTheory ProbabilityTheory Filter
open scoped ENNReal Topology

namespace PyCTBN
open Spec JumpPaths Indep

noncomputable section

/-- Exponentially small probabilities: those of deviating by `ε` decrease exponentially in `ε ^ 2 * n`. -/
def ExpRare {Ω : Type} [MeasurableSpace Ω] (μ : Measure Ω) (X : ℕ → Ω → ℝ) (c : ℝ) : Prop :=
  ∃ a C : ℝ, 0 < a ∧ 1 ≤ C ∧ ∀ (n : ℕ) (ε : ℝ), 0 < ε → ε ≤ 1 → μ {ω | ε ≤ |X n ω - c|} ≤ ENNReal.ofReal (C * Real.exp (-(a * ε ^ 2 * n)))

theorem expRare_of_tail {Ω : Type} [MeasurableSpace Ω] {μ : Measure Ω} [IsProbabilityMeasure μ] {X Y : ℕ → Ω → ℝ} {c B K θ₀ : ℝ} (hB : 0 < B) (hK : 0 ≤ K) (hθ₀ : 0 < θ₀)
    (hXY : ∀ n ω, |X n ω - Y n ω| ≤ 1)
    (h : ∀ j : ℕ, ∀ θ : ℝ, 0 ≤ θ → θ ≤ θ₀ → ∀ δ : ℝ, μ {ω | δ ≤ |Y j ω - j * c|} ≤ ENNReal.ofReal (2 * Real.exp (-(θ * δ) + B * θ ^ 2 * j + K * θ))) :
    ExpRare μ (fun n ω => X n ω / n) c := by
  set κ := min (1 / (2 * B)) θ₀ with hκ
  have hκ0 : 0 < κ := lt_min (by positivity) hθ₀
  have hκB : B * κ ≤ 1 / 2 := by
    have : κ ≤ 1 / (2 * B) := min_le_left _ _
    calc B * κ ≤ B * (1 / (2 * B)) := mul_le_mul_of_nonneg_left this hB.le
      _ = 1 / 2 := by field_simp
  have hC1 : 1 ≤ 2 * Real.exp ((K + 1) * κ) := by
    have := Real.one_le_exp (show 0 ≤ (K + 1) * κ by positivity)
    linarith
  refine ⟨κ / 2, 2 * Real.exp ((K + 1) * κ), by positivity, hC1, fun n ε hε hε1 => ?_⟩
  rcases Nat.eq_zero_or_pos n with rfl | hn
  · refine prob_le_one.trans ?_
    rw [← ENNReal.ofReal_one]
    refine ENNReal.ofReal_le_ofReal ?_
    simpa using hC1
  have hn' : (0 : ℝ) < n := by exact_mod_cast hn
  refine (measure_mono (fun ω hω => ?_)).trans ((h n (κ * ε) (by positivity) ((mul_le_of_le_one_right hκ0.le hε1).trans (min_le_right _ _)) (ε * n - 1)).trans (ENNReal.ofReal_le_ofReal ?_))
  · simp only [Set.mem_ofPred_eq] at hω ⊢
    rw [show X n ω / n - c = (X n ω - n * c) / n by field_simp, abs_div, abs_of_pos hn', le_div_iff₀ hn'] at hω
    have h1 := abs_sub_le (X n ω) (Y n ω) (n * c)
    have := hXY n ω
    linarith
  · rw [mul_assoc 2 (Real.exp _) (Real.exp _), ← Real.exp_add]
    refine mul_le_mul_of_nonneg_left (Real.exp_le_exp.2 ?_) (by norm_num)
    have h1 : B * (κ * ε) ^ 2 * n ≤ 1 / 2 * κ * ε ^ 2 * n := by
      have := mul_le_mul_of_nonneg_right hκB (show 0 ≤ κ * ε ^ 2 * n by positivity)
      nlinarith
    have h2 : κ * ε ≤ κ := mul_le_of_le_one_right hκ0.le hε1
    have h3 : K * (κ * ε) ≤ K * κ := mul_le_mul_of_nonneg_left h2 hK
    nlinarith

/-- The ratio of two sums close to their expectations is close to the ratio of the expectations. -/
theorem ratio_close {r s q ε n T M : ℝ} (hs0 : 0 < s) (hq0 : 0 < q) (hq2 : q ≤ s / 2) (hq3 : q * (1 + |r|) ≤ s / 8) (hε : 0 < ε) (hε1 : ε ≤ 1)
    (hnn : 8 * (1 + |r|) < n * (ε * s)) (hnpos : 0 < n) (hT' : |T - n * s| < q * ε * n) (hM' : |M - n * (r * s)| < q * ε * n) : |(M + 1) / (T + 1) - r| < ε := by
  have hη2 : q * ε ≤ s / 2 := (mul_le_of_le_one_right hq0.le hε1).trans hq2
  have hη3 : q * ε * (1 + |r|) ≤ ε * s / 8 := by
    have := mul_le_mul_of_nonneg_left hq3 hε.le
    linarith
  have hTpos : s / 2 * n ≤ T := by
    have h1 := (abs_lt.1 hT').1
    have h2 := mul_le_mul_of_nonneg_right hη2 hnpos.le
    linarith
  have hT1 : 0 < T + 1 := by
    have : 0 < s / 2 * n := by positivity
    linarith
  have e : (M + 1) / (T + 1) - r = ((M - n * (r * s)) - r * (T - n * s) + (1 - r)) / (T + 1) := by
    rw [eq_div_iff hT1.ne', sub_mul, div_mul_cancel₀ _ hT1.ne']
    ring
  rw [e, abs_div, abs_of_pos hT1, div_lt_iff₀ hT1]
  have hb : |(M - n * (r * s)) - r * (T - n * s) + (1 - r)| ≤ q * ε * n + |r| * (q * ε * n) + (1 + |r|) := by
    refine (abs_add_le _ _).trans (add_le_add ((abs_sub _ _).trans (add_le_add hM'.le ?_)) ?_)
    · rw [abs_mul]; exact mul_le_mul_of_nonneg_left hT'.le (abs_nonneg _)
    · refine (abs_sub _ _).trans ?_; rw [abs_one]
  have h3 : ε * (s / 2 * n) ≤ ε * (T + 1) := mul_le_mul_of_nonneg_left (by linarith) hε.le
  have h4 := mul_le_mul_of_nonneg_right hη3 hnpos.le
  have h5 : 0 < ε * s * n := by positivity
  have h6 : q * ε * n + |r| * (q * ε * n) = q * ε * (1 + |r|) * n := by ring
  have h7 : ε * s / 8 * n = ε * s * n / 8 := by ring
  have h8 : ε * (s / 2 * n) = ε * s * n / 2 := by ring
  have h9 : n * (ε * s) = ε * s * n := by ring
  linarith

/-- If mean times and mean counts rarely deviate, so do the estimates. -/
theorem expRare_ratio {Ω : Type} [MeasurableSpace Ω] {μ : Measure Ω} [IsProbabilityMeasure μ] {M T : ℕ → Ω → ℝ} {f s : ℝ} (hs0 : 0 < s)
    (hT : ExpRare μ (fun n ω => T n ω / n) s) (hM : ExpRare μ (fun n ω => M n ω / n) f) : ExpRare μ (fun n ω => (M n ω + 1) / (T n ω + 1)) (f / s) := by
  obtain ⟨a₁, C₁, ha₁, hC₁, h₁⟩ := hT
  obtain ⟨a₂, C₂, ha₂, hC₂, h₂⟩ := hM
  set r := f / s with hr'
  have hfr : f = r * s := by rw [hr', div_mul_cancel₀ _ hs0.ne']
  set q := min 1 (min (s / 2) (s / 8 / (1 + |r|))) with hq
  have hq0 : 0 < q := lt_min one_pos (lt_min (by positivity) (by positivity))
  have hq1 : q ≤ 1 := min_le_left _ _
  have hq2 : q ≤ s / 2 := (min_le_right _ _).trans (min_le_left _ _)
  have hq3 : q * (1 + |r|) ≤ s / 8 := by
    have : q ≤ s / 8 / (1 + |r|) := (min_le_right _ _).trans (min_le_right _ _)
    rwa [le_div_iff₀ (by positivity)] at this
  set a := min a₁ a₂ * q ^ 2 with ha
  have ha0 : 0 < a := by have := lt_min ha₁ ha₂; positivity
  set D := Real.exp (a * (8 * (1 + |r|) / s)) with hD
  have hD1 : 1 ≤ D := Real.one_le_exp (by positivity)
  refine ⟨a, C₁ + C₂ + D, ha0, by linarith, fun n ε hε hε1 => ?_⟩
  rcases le_or_gt (n : ℝ) (8 * (1 + |r|) / (ε * s)) with hsmall | hnn
  · refine prob_le_one.trans ?_
    rw [← ENNReal.ofReal_one]
    refine ENNReal.ofReal_le_ofReal ?_
    have h1 : a * ε ^ 2 * n ≤ a * (8 * (1 + |r|) / s) := by
      calc a * ε ^ 2 * n ≤ a * ε ^ 2 * (8 * (1 + |r|) / (ε * s)) := mul_le_mul_of_nonneg_left hsmall (by positivity)
        _ = a * (8 * (1 + |r|) / s) * ε := by field_simp
        _ ≤ a * (8 * (1 + |r|) / s) := mul_le_of_le_one_right (by positivity) hε1
    have h2 : 1 ≤ D * Real.exp (-(a * ε ^ 2 * n)) := by
      rw [hD, ← Real.exp_add]
      exact Real.one_le_exp (by linarith)
    have h3 : 0 ≤ (C₁ + C₂) * Real.exp (-(a * ε ^ 2 * n)) := mul_nonneg (by linarith) (Real.exp_pos _).le
    rw [add_mul]
    linarith
  have hnpos : (0 : ℝ) < n := lt_of_le_of_lt (by positivity) hnn
  have hη0 : 0 < q * ε := by positivity
  have hη1 : q * ε ≤ 1 := by nlinarith
  have hexp : ∀ a', min a₁ a₂ ≤ a' → Real.exp (-(a' * (q * ε) ^ 2 * n)) ≤ Real.exp (-(a * ε ^ 2 * n)) := by
    intro a' ha'
    refine Real.exp_le_exp.2 (neg_le_neg ?_)
    rw [ha]
    have := mul_le_mul_of_nonneg_right ha' (show 0 ≤ q ^ 2 * ε ^ 2 * n by positivity)
    nlinarith
  have hsum : μ {ω | q * ε ≤ |T n ω / n - s|} + μ {ω | q * ε ≤ |M n ω / n - f|} ≤ ENNReal.ofReal ((C₁ + C₂ + D) * Real.exp (-(a * ε ^ 2 * n))) := by
    refine (add_le_add (h₁ n (q * ε) hη0 hη1) (h₂ n (q * ε) hη0 hη1)).trans ?_
    rw [← ENNReal.ofReal_add (by positivity) (by positivity)]
    refine ENNReal.ofReal_le_ofReal ?_
    have e1 := mul_le_mul_of_nonneg_left (hexp a₁ (min_le_left _ _)) (by linarith : 0 ≤ C₁)
    have e2 := mul_le_mul_of_nonneg_left (hexp a₂ (min_le_right _ _)) (by linarith : 0 ≤ C₂)
    have e3 : 0 ≤ D * Real.exp (-(a * ε ^ 2 * n)) := by positivity
    nlinarith
  refine (measure_mono (fun ω hω => ?_)).trans ((measure_union_le _ _).trans hsum)
  simp only [Set.mem_union, Set.mem_ofPred_eq] at hω ⊢
  by_contra hcon
  push Not at hcon
  obtain ⟨hT, hM⟩ := hcon
  rw [div_lt_iff₀ (by positivity)] at hnn
  rw [show T n ω / n - s = (T n ω - n * s) / n by field_simp, abs_div, abs_of_pos hnpos, div_lt_iff₀ hnpos] at hT
  rw [show M n ω / n - f = (M n ω - n * f) / n by field_simp, abs_div, abs_of_pos hnpos, div_lt_iff₀ hnpos, hfr] at hM
  exact absurd (ratio_close hs0 hq0 hq2 hq3 hε hε1 hnn hnpos hT hM) (not_lt.2 hω)

section
variable {net : SampleNet} {N : Ctbn} (hD : Describes net N) (hOK : N.OK)
include hD hOK
variable {U : Type} [MeasurableSpace U] {P : Measure U} [IsProbabilityMeasure P] (C : Categorical U P)

/-- The exponential tails of the sums over the first moves. -/
theorem sampled_total_tail (hc : N.Conservative) (hirr : N.Irreducible) {π : List Nat → ℝ} (hπ : Stationary N N.inverseRates π)
    (b : List Nat → Step → ℝ) (w : List Nat → ℝ) {c : ℝ}
    (hval : ∑ a ∈ N.joint, π a * (∑ s ∈ steps N, N.inverseRates a (N.vars.getD s.1 "") s.2 * b a s + w a) = c * pace N N.inverseRates π) :
    ∃ B K θ₀ : ℝ, 0 < B ∧ 0 ≤ K ∧ 0 < θ₀ ∧ ∀ j : ℕ, ∀ θ : ℝ, 0 ≤ θ → θ ≤ θ₀ → ∀ δ : ℝ, drawLaw N.vars.length P {ω |
      δ ≤ |listTotal (linStep b w) (N.vars.map (fun _ => 0)) 0 (sampledMoves net C j ω) - j * c|} ≤ ENNReal.ofReal (2 * Real.exp (-(θ * δ) + B * θ ^ 2 * j + K * θ)) := by
  obtain ⟨B, K, θ₀, hB, hK, hθ₀, h⟩ := sampled_increment_tail hD hOK C hc hirr hπ b w hval
  refine ⟨B, K, θ₀, hB, hK, hθ₀, fun j θ h0 h1 δ => ?_⟩
  have := h 0 j θ h0 h1 δ
  have e : ∀ ω : ℕ → (Fin N.vars.length → ℝ) × U, sampledMoves net C 0 ω = [] := fun ω => rfl
  simpa only [zero_add, e, listTotal, Nat.cast_zero, zero_mul, sub_zero] using this

/-- **C223** (times and transitions).  The mean time and the mean number of moves per transition in given circumstances deviate from their stationary values by `ε` with a probability
that is exponentially small in `ε ^ 2` times the number of transitions. -/
theorem statistics_expRare (hc : N.Conservative) (hirr : N.Irreducible) {π : List Nat → ℝ} (hπ : Stationary N N.inverseRates π)
    {v : Label} (hv : v ∈ N.vars) {L : List Label} (hL : ∀ p ∈ L, p ∈ N.vars) (x : Nat) (u : List Nat) :
    ExpRare (drawLaw N.vars.length P) (fun n ω => (rawResidence N.vars [sampledRows net C n ω] v L x u : ℝ) / n) (share N π v L x u / pace N N.inverseRates π) ∧
    ∀ y < N.card v, y ≠ x →
      ExpRare (drawLaw N.vars.length P) (fun n ω => (rawTransitions N.vars [sampledRows net C n ω] v L x y u : ℝ) / n)
        (flux N N.inverseRates π v L x y u / pace N N.inverseRates π) := by
  have hU := usable_inverse hD hOK (leaves_of_conservative hD hOK hc)
  have hp := (pace_pos hOK hU hπ).ne'
  have hdraw : IsProbabilityMeasure (drawLaw N.vars.length P) := by unfold drawLaw; infer_instance
  refine ⟨?_, fun y hy hxy => ?_⟩
  · obtain ⟨B, K, θ₀, hB, hK, hθ₀, h⟩ := sampled_total_tail hD hOK C hc hirr hπ (fun _ _ => 0) (caseInd N v L x u) (c := share N π v L x u / pace N N.inverseRates π) (by
      rw [div_mul_cancel₀ _ hp]
      unfold share caseInd
      refine Finset.sum_congr rfl (fun a _ => ?_)
      split_ifs <;> simp)
    refine expRare_of_tail hB hK hθ₀ (fun n ω => ?_) h
    rw [(sampledRows_sums hD hOK C hv hL (x := x) (y := x + 1) (by omega) u n ω).1, sub_self, abs_zero]
    exact zero_le_one
  · obtain ⟨B, K, θ₀, hB, hK, hθ₀, h⟩ := sampled_total_tail hD hOK C hc hirr hπ (caseStep N v L x y u) (fun _ => 0) (c := flux N N.inverseRates π v L x y u / pace N N.inverseRates π) (by
      rw [div_mul_cancel₀ _ hp]
      unfold flux
      refine Finset.sum_congr rfl (fun a _ => ?_)
      rw [sum_caseStep hOK a hv L x hy u, add_zero]
      split_ifs <;> simp)
    refine expRare_of_tail hB hK hθ₀ (fun n ω => ?_) h
    obtain ⟨-, h1, h2⟩ := sampledRows_sums hD hOK C hv hL hxy u n ω
    rw [abs_le]
    constructor <;> linarith

/-- **C223** (estimates).  The intensity the library estimates given all parents (and possibly others) is wrong by `ε` with a probability that is exponentially small in `ε ^ 2` times
the number of transitions; "wrong" is measured against the intensity divided by the square of the exit intensity. -/
theorem estimate_expRare (hc : N.Conservative) (hirr : N.Irreducible) {v : Label} (hv : v ∈ N.vars) {L : List Label} (hL : ∀ p ∈ L, p ∈ N.vars)
    (hP : ∀ p ∈ N.parents v, p ∈ L) {vals : List Nat} (hr : N.InRange vals) {y : Nat} (hxy : y ≠ N.state vals v) (hy : y < N.card v) :
    ∃ a C₀ : ℝ, 0 < a ∧ ∀ (n : ℕ) (ε : ℝ), 0 < ε → ε ≤ 1 → drawLaw N.vars.length P {ω | ε ≤
      |((rawTransitions N.vars [sampledRows net C n ω] v L (N.state vals v) y (L.map (N.state vals)) : ℝ) + 1)
        / ((rawResidence N.vars [sampledRows net C n ω] v L (N.state vals v) (L.map (N.state vals)) : ℝ) + 1) - N.inverseAt v (N.parentStates vals v) (N.state vals v) y|}
      ≤ ENNReal.ofReal (C₀ * Real.exp (-(a * ε ^ 2 * n))) := by
  obtain ⟨π, hπ, hpos, -⟩ := sample_stationary hD hOK hc hirr
  have hdraw : IsProbabilityMeasure (drawLaw N.vars.length P) := by unfold drawLaw; infer_instance
  have hp := pace_pos hOK (usable_inverse hD hOK (leaves_of_conservative hD hOK hc)) hπ
  have hcase : Circumstances N v L (N.state vals v) (L.map (N.state vals)) vals := ⟨rfl, rfl⟩
  have hshare : 0 < share N π v L (N.state vals v) (L.map (N.state vals)) := by
    unfold share
    refine Finset.sum_pos' (fun a ha => ?_) ⟨vals, (mem_joint hOK).2 hr, ?_⟩
    · split_ifs
      · exact hπ.nonneg a ha
      · exact le_rfl
    · rw [if_pos hcase]; exact hpos vals hr
  obtain ⟨h1, h2⟩ := statistics_expRare hD hOK C hc hirr hπ hv hL (N.state vals v) (L.map (N.state vals))
  obtain ⟨a, C₀, ha, -, h⟩ := expRare_ratio (div_pos hshare hp) h1 (h2 y hy hxy)
  refine ⟨a, C₀, ha, fun n ε hε hε1 => ?_⟩
  have := h n ε hε hε1
  rwa [flux_of_parents hD hOK hc hv hP hxy, ← (parentStates_of hP hcase).2, mul_div_assoc, mul_div_cancel_right₀ _ (div_pos hshare hp).ne'] at this

/-- **C223** (amount of data).  An amount of data growing like the logarithm of `1 / p` over `ε ^ 2` makes the probability of an error of `ε` at most `p`. -/
theorem estimate_sample_size (hc : N.Conservative) (hirr : N.Irreducible) {v : Label} (hv : v ∈ N.vars) {L : List Label} (hL : ∀ p ∈ L, p ∈ N.vars)
    (hP : ∀ p ∈ N.parents v, p ∈ L) {vals : List Nat} (hr : N.InRange vals) {y : Nat} (hxy : y ≠ N.state vals v) (hy : y < N.card v) :
    ∃ A : ℝ, ∀ (ε p : ℝ), 0 < ε → ε ≤ 1 → 0 < p → p ≤ 1 → ∀ n : ℕ, A * (1 + Real.log (1 / p)) / ε ^ 2 ≤ n → drawLaw N.vars.length P {ω | ε ≤
      |((rawTransitions N.vars [sampledRows net C n ω] v L (N.state vals v) y (L.map (N.state vals)) : ℝ) + 1)
        / ((rawResidence N.vars [sampledRows net C n ω] v L (N.state vals v) (L.map (N.state vals)) : ℝ) + 1) - N.inverseAt v (N.parentStates vals v) (N.state vals v) y|}
      ≤ ENNReal.ofReal p := by
  obtain ⟨a, C₀, ha, h⟩ := estimate_expRare hD hOK C hc hirr hv hL hP hr hxy hy
  set C₁ := max C₀ 1
  have hC₁ : 1 ≤ C₁ := le_max_right _ _
  have hl := Real.log_nonneg hC₁
  refine ⟨(1 + Real.log C₁) / a, fun ε p hε hε1 hp hp1 n hn => (h n ε hε hε1).trans (ENNReal.ofReal_le_ofReal ?_)⟩
  have hlp : 0 ≤ Real.log (1 / p) := Real.log_nonneg (by rw [le_div_iff₀ hp]; linarith)
  rw [div_le_iff₀ (by positivity), div_mul_eq_mul_div, div_le_iff₀ ha] at hn
  have h1 : Real.log C₁ + Real.log (1 / p) ≤ a * ε ^ 2 * n := by nlinarith [mul_nonneg hl hlp]
  calc C₀ * Real.exp (-(a * ε ^ 2 * n)) ≤ C₁ * Real.exp (-(Real.log C₁ + Real.log (1 / p))) :=
        mul_le_mul (le_max_left _ _) (Real.exp_le_exp.2 (neg_le_neg h1)) (Real.exp_pos _).le (by linarith)
    _ = p := by
        rw [neg_add, Real.exp_add, Real.exp_neg, Real.exp_log (by linarith), one_div, Real.log_inv, neg_neg, Real.exp_log hp]
        field_simp

end

/-! ## Non-vacuity -/

namespace Demo

/-- C223: the estimate of `Y`'s intensity of leaving 0 while `X` is in 1. -/
example : ∃ a C₀ : ℝ, 0 < a ∧ ∀ (n : ℕ) (ε : ℝ), 0 < ε → ε ≤ 1 → drawLaw 2 (Measure.infinitePi choiceLaw) {ω | ε ≤
      |((rawTransitions ["X", "Y"] [sampledRows pairNet someCategorical n ω] "Y" ["X"] 0 1 [1] : ℝ) + 1)
        / ((rawResidence ["X", "Y"] [sampledRows pairNet someCategorical n ω] "Y" ["X"] 0 [1] : ℝ) + 1) - 2|} ≤ ENNReal.ofReal (C₀ * Real.exp (-(a * ε ^ 2 * n))) := by
  have h := estimate_expRare pair_describes pair_ok someCategorical pair_conservative pair_irreducible (v := "Y") (by decide) (L := ["X"]) (by decide) (by decide)
    (vals := [1, 0]) ⟨rfl, by decide⟩ (y := 1) (by decide) (by decide)
  have e : pairCtbn.inverseAt "Y" (pairCtbn.parentStates [1, 0] "Y") (pairCtbn.state [1, 0] "Y") 1 = 2 := by
    unfold Ctbn.inverseAt
    have e1 : pairCtbn.intensityAt "Y" (pairCtbn.parentStates [1, 0] "Y") (pairCtbn.state [1, 0] "Y") 1 = 1 / 2 := by decide +kernel
    have e2 : pairCtbn.exitAt "Y" (pairCtbn.parentStates [1, 0] "Y") (pairCtbn.state [1, 0] "Y") = 1 / 2 := by decide +kernel
    rw [e1, e2]; norm_num
  rw [e] at h
  exact h

end Demo

end

end PyCTBN
