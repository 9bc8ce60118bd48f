import Verif.Props.PooledSearch
import Verif.Lemmas.Smoothing

/-!
# The rounding of the time stamps does not add up: C211
-/

open MeasureTheory ProbabilityTheory Filter
open scoped ENNReal Topology

namespace PyCTBN
open Spec JumpPaths Smoothing

noncomputable section

theorem Smoothing.Wave.sum {H B : ℝ} {ι : Type} (S : Finset ι) (c : ι → ℝ) {f : ι → ℝ → ℝ} (h : ∀ i ∈ S, Wave H B (f i)) :
    Wave H ((∑ i ∈ S, |c i|) * B) (fun t => ∑ i ∈ S, c i * f i t) := by
  classical
  induction S using Finset.induction_on with
  | empty => simpa using Wave.zero H (B := 0) le_rfl
  | insert i S hi ih =>
    have h1 := ((h i (Finset.mem_insert_self _ _)).mul (c i)).add (ih (fun j hj => h j (Finset.mem_insert_of_mem hj)))
    simp only [Finset.sum_insert hi, add_mul]
    exact h1

/-- How the mean of rounded times depends on the clock at the start. -/
theorem rounded_mean {N : Ctbn} (hOK : N.OK) {rate : Rates} (hU : Usable N rate) {Λ : ℝ} (hΛ : ∀ vals, N.InRange vals → totalRate N rate vals ≤ Λ) (hΛ2 : Λ ≤ 2500)
    {w : List Nat → ℝ} (hw : ∀ vals, 0 ≤ w vals ∧ w vals ≤ 1) (n : Nat) : ∀ vals, N.InRange vals → ∃ φ, Wave (1 / 5000) (1 / 10000) φ ∧ ∀ t,
      meanTotal N rate (linStep (fun _ _ => 0) w) n vals t
        = meanTotal N rate (fun vals _ _ a => 0 + w vals * a) n vals 0 - (if n = 0 then 0 else w vals) * roundError t + later (totalRate N rate vals) φ t := by
  induction n with
  | zero =>
    intro vals hr
    refine ⟨_, Wave.zero _ (by norm_num), fun t => ?_⟩
    simp [meanTotal_zero, later]
  | succ n ih =>
    intro vals hr
    have hR := hU.pos vals hr
    have hP := isProbabilityMeasure_expMeasure hR
    have ih' : ∀ s, ∃ φ : ℝ → ℝ, s ∈ steps N → Wave (1 / 5000) (1 / 10000) φ ∧ ∀ t, meanTotal N rate (linStep (fun _ _ => 0) w) n (after vals s) t
        = meanTotal N rate (fun vals _ _ a => 0 + w vals * a) n (after vals s) 0 - (if n = 0 then 0 else w (after vals s)) * roundError t
          + later (totalRate N rate (after vals s)) φ t := by
      intro s
      by_cases hs : s ∈ steps N
      · obtain ⟨φ, h⟩ := ih _ (hU.closed vals hr s hs)
        exact ⟨φ, fun _ => h⟩
      · exact ⟨fun _ => 0, fun h => absurd h hs⟩
    choose φ hφ using ih'
    obtain ⟨A, hA⟩ := tame_linStep hOK (fun _ _ => 0) w hU
    have hPs : ∀ s ∈ steps N, 0 ≤ stepProb N rate vals s := fun s hs => stepProb_nonneg hU hr hs
    have hsum := sum_stepProb hU hr
    -- the later behaviour after each step
    have hlat : ∀ s ∈ steps N, Wave (1 / 5000) (1 / 20000) (later (totalRate N rate (after vals s)) (φ s)) := by
      intro s hs
      refine ((hφ s hs).1.later (by norm_num) (hU.pos _ (hU.closed vals hr s hs))).mono ?_
      have := hΛ _ (hU.closed vals hr s hs)
      nlinarith
    set w' : Step → ℝ := fun s => if n = 0 then 0 else w (after vals s) with hw'
    have hw01 : ∀ s, 0 ≤ w' s ∧ w' s ≤ 1 := by
      intro s
      simp only [hw']
      split_ifs
      · norm_num
      · exact hw _
    set c := w vals - ∑ s ∈ steps N, stepProb N rate vals s * w' s with hc
    have hc1 : |c| ≤ 1 := by
      have h1 : 0 ≤ ∑ s ∈ steps N, stepProb N rate vals s * w' s := Finset.sum_nonneg (fun s hs => mul_nonneg (hPs s hs) (hw01 s).1)
      have h2 : ∑ s ∈ steps N, stepProb N rate vals s * w' s ≤ 1 := by
        rw [← hsum]
        exact Finset.sum_le_sum (fun s hs => mul_le_of_le_one_right (hPs s hs) (hw01 s).2)
      rw [abs_le]
      constructor <;> linarith [(hw vals).1, (hw vals).2]
    have hwave := (roundError_wave.mul c).add (Wave.sum (steps N) (stepProb N rate vals) hlat)
    refine ⟨_, hwave.mono ?_, fun t => ?_⟩
    · have : ∑ s ∈ steps N, |stepProb N rate vals s| = 1 := by
        rw [← hsum]; exact Finset.sum_congr rfl (fun s hs => abs_of_nonneg (hPs s hs))
      rw [this]
      linarith
    · rw [meanTotal_succ hU hA n hr, (meanTime_succ hOK hU w n).2 hr, if_neg (Nat.succ_ne_zero n)]
      have hErr := roundError_wave.shift t
      have hterm : ∀ s ∈ steps N, stepProb N rate vals s * ∫ a, (linStep (fun _ _ => 0) w vals t s a + meanTotal N rate (linStep (fun _ _ => 0) w) n (after vals s) (t + a)) ∂expMeasure (totalRate N rate vals)
          = stepProb N rate vals s * (w vals / totalRate N rate vals - w vals * roundError t + w vals * later (totalRate N rate vals) roundError t)
            + stepProb N rate vals s * meanTotal N rate (fun vals _ _ a => 0 + w vals * a) n (after vals s) 0
            - stepProb N rate vals s * w' s * later (totalRate N rate vals) roundError t
            + stepProb N rate vals s * later (totalRate N rate vals) (later (totalRate N rate (after vals s)) (φ s)) t := by
        intro s hs
        have e : ∀ a, linStep (fun _ _ => 0) w vals t s a + meanTotal N rate (linStep (fun _ _ => 0) w) n (after vals s) (t + a)
            = (w vals * a + (w vals - w' s) * roundError (t + a)) + ((meanTotal N rate (fun vals _ _ a => 0 + w vals * a) n (after vals s) 0 - w vals * roundError t)
              + later (totalRate N rate (after vals s)) (φ s) (t + a)) := by
          intro a
          rw [(hφ s hs).2]
          simp only [linStep, hw', roundError]
          ring
        simp only [e]
        have i1 : Integrable (fun a => w vals * a) (expMeasure (totalRate N rate vals)) := (Clocks.exp_integrable hR).const_mul _
        have i2 : Integrable (fun a => (w vals - w' s) * roundError (t + a)) (expMeasure (totalRate N rate vals)) := (hErr.integrable hR).const_mul _
        have i3 : Integrable (fun a => later (totalRate N rate (after vals s)) (φ s) (t + a)) (expMeasure (totalRate N rate vals)) := ((hlat s hs).shift t).integrable hR
        generalize meanTotal N rate (fun vals _ _ a => 0 + w vals * a) n (after vals s) 0 = E
        have i12 : Integrable (fun a => w vals * a + (w vals - w' s) * roundError (t + a)) (expMeasure (totalRate N rate vals)) := i1.add i2
        have i34 : Integrable (fun a => (E - w vals * roundError t) + later (totalRate N rate (after vals s)) (φ s) (t + a)) (expMeasure (totalRate N rate vals)) :=
          (integrable_const _).add i3
        rw [integral_add i12 i34, integral_add i1 i2, integral_add (integrable_const _) i3, integral_const_mul, integral_const_mul, Clocks.exp_mean hR, integral_const]
        simp only [probReal_univ, one_smul, later]
        ring
      rw [Finset.sum_congr rfl hterm, Finset.sum_add_distrib, Finset.sum_sub_distrib, Finset.sum_add_distrib, ← Finset.sum_mul, hsum, ← Finset.sum_mul]
      have hl : later (totalRate N rate vals) (fun t => c * roundError t + ∑ s ∈ steps N, stepProb N rate vals s * later (totalRate N rate (after vals s)) (φ s) t) t
          = c * later (totalRate N rate vals) roundError t + ∑ s ∈ steps N, stepProb N rate vals s * later (totalRate N rate vals) (later (totalRate N rate (after vals s)) (φ s)) t := by
        have i2 : Integrable (fun a => c * roundError (t + a)) (expMeasure (totalRate N rate vals)) := (hErr.integrable hR).const_mul _
        have i3 : ∀ s ∈ steps N, Integrable (fun a => stepProb N rate vals s * later (totalRate N rate (after vals s)) (φ s) (t + a)) (expMeasure (totalRate N rate vals)) :=
          fun s hs => (((hlat s hs).shift t).integrable hR).const_mul _
        show ∫ a, (c * roundError (t + a) + ∑ s ∈ steps N, stepProb N rate vals s * later (totalRate N rate (after vals s)) (φ s) (t + a)) ∂expMeasure (totalRate N rate vals) = _
        rw [integral_add i2 (integrable_finset_sum _ i3), integral_const_mul, integral_finsetSum _ i3]
        simp only [integral_const_mul]
        rfl
      rw [hl, hc]
      ring

theorem caseInd_unit (N : Ctbn) (v : Label) (L : List Label) (x : Nat) (u vals : List Nat) : 0 ≤ caseInd N v L x u vals ∧ caseInd N v L x u vals ≤ 1 := by
  unfold caseInd; split_ifs <;> norm_num

section
variable {net : SampleNet} {N : Ctbn} (hD : Describes net N) (hOK : N.OK)
include hD hOK
variable {U : Type} [MeasurableSpace U] {P : Measure U} [IsProbabilityMeasure P] (C : Categorical U P)

/-- **C211** The rounding of the time stamps does not add up.  If in every joint state the sampled process moves at a total rate of at most `Λ ≤ 2500`, then the mean time spent in any circumstances
according to the rows of a trajectory sampled with `max_tr = m` differs from the mean time really spent by at most `2 Λ / 10⁸`, however large `m` is: although every one of the `m` stamps is rounded to
four decimals. -/
theorem stamp_rounding_bounded (hc : N.Conservative) {Λ : ℝ} (hΛ : ∀ vals, N.InRange vals → totalRate N N.inverseRates vals ≤ Λ) (hΛ2 : Λ ≤ 2500) {v : Label} (hv : v ∈ N.vars)
    {L : List Label} (hL : ∀ p ∈ L, p ∈ N.vars) (x : Nat) (u : List Nat) (m : Nat) :
    |meanStay net N C m v L x u - ∫ ω, circumstanceTime N v L x u (N.vars.map (fun _ => 0)) (sampledMoves (m := N.vars.length) net C m ω) ∂drawLaw N.vars.length P|
      ≤ 2 * Λ / 10 ^ 8 := by
  have hpos := leaves_of_conservative hD hOK hc
  have hU := usable_inverse hD hOK hpos
  have hr0 : N.InRange (N.vars.map (fun _ => 0)) := zeros_inRange hOK
  obtain ⟨A1, hA1⟩ := tame_linStep hOK (fun _ _ => 0) (caseInd N v L x u) hU
  obtain ⟨A2, hA2⟩ := tame_simple hOK hU (fun _ _ => 0) (caseInd N v L x u)
  have h1 := (sampled_total_mean hD hOK C hpos hA1 m).2
  have h2 := (sampled_total_mean hD hOK C hpos hA2 m).2
  have e1 : meanStay net N C m v L x u = meanTotal N N.inverseRates (linStep (fun _ _ => 0) (caseInd N v L x u)) m (N.vars.map (fun _ => 0)) 0 := by
    rw [← h1]
    exact integral_congr_ae (.of_forall (fun ω => (sampledRows_sums hD hOK C hv hL (x := x) (y := x + 1) (by omega) u m ω).1))
  have e2 : ∫ ω, circumstanceTime N v L x u (N.vars.map (fun _ => 0)) (sampledMoves (m := N.vars.length) net C m ω) ∂drawLaw N.vars.length P
      = meanTotal N N.inverseRates (fun vals _ _ a => 0 + caseInd N v L x u vals * a) m (N.vars.map (fun _ => 0)) 0 := by
    rw [← h2]
    exact integral_congr_ae (.of_forall (fun ω => circumstanceTime_eq N v L x u _ _ 0))
  obtain ⟨φ, hφ, h⟩ := rounded_mean hOK hU hΛ hΛ2 (caseInd_unit N v L x u) m _ hr0
  have hz : roundError 0 = 0 := by unfold roundError; rw [round4R_zero]; simp
  rw [e1, e2, h 0, hz, mul_zero, sub_zero, add_sub_cancel_left]
  refine ((hφ.later (by norm_num) (hU.pos _ hr0)).bound 0).trans ?_
  have := hΛ _ hr0
  linarith

/-- **C211** (estimates).  Under the conditions of C211, in circumstances in which more than `2 Λ / 10⁸` units of time are spent on average, the estimates from pooled trajectories, which converge to
`r · τ' / T` (C206), converge to a number close to `r · τ' / τ`, where `τ` is the mean time really spent and `τ'` the part of it before the last state. -/
theorem pooled_estimate_rounding (hc : N.Conservative) {Λ : ℝ} (hΛ : ∀ vals, N.InRange vals → totalRate N N.inverseRates vals ≤ Λ) (hΛ2 : Λ ≤ 2500) {v : Label} (hv : v ∈ N.vars)
    {L : List Label} (hL : ∀ p ∈ L, p ∈ N.vars) (hP : ∀ p ∈ N.parents v, p ∈ L) {x y : Nat} (hxy : y ≠ x) (hy : y < N.card v) (u : List Nat) (m : Nat)
    (hτ : 2 * Λ / 10 ^ 8 < ∫ ω, circumstanceTime N v L x u (N.vars.map (fun _ => 0)) (sampledMoves (m := N.vars.length) net C (m + 1) ω) ∂drawLaw N.vars.length P) :
    ∃ T, |T - ∫ ω, circumstanceTime N v L x u (N.vars.map (fun _ => 0)) (sampledMoves (m := N.vars.length) net C (m + 1) ω) ∂drawLaw N.vars.length P| ≤ 2 * Λ / 10 ^ 8 ∧ 0 < T ∧
      ∀ᵐ ω ∂manyLaw N.vars.length P, Tendsto (fun k => ((rawTransitions N.vars (pooledRows net C (m + 1) k ω) v L x y u : ℝ) + 1)
        / ((rawResidence N.vars (pooledRows net C (m + 1) k ω) v L x u : ℝ) + 1)) atTop
      (𝓝 (N.inverseAt v (N.parentPart v L u) x y
        * ((∫ ω, circumstanceTime N v L x u (N.vars.map (fun _ => 0)) (sampledMoves (m := N.vars.length) net C m ω) ∂drawLaw N.vars.length P) / T))) := by
  have h := stamp_rounding_bounded hD hOK C hc hΛ hΛ2 hv hL x u (m + 1)
  have hpos : 0 < meanStay net N C (m + 1) v L x u := by have := (abs_le.1 h).1; linarith
  exact ⟨_, h, hpos, pooled_estimate_limit hD hOK C hc hv hL hP hxy hy u m hpos⟩

end

/-! ## Non-vacuity -/

namespace Demo

/-- C211: the pair of C190 moves at rates of at most 3. -/
example (m : Nat) : |meanStay pairNet pairCtbn someCategorical m "X" ["Y"] 0 [1]
    - ∫ ω, circumstanceTime pairCtbn "X" ["Y"] 0 [1] [0, 0] (sampledMoves (m := 2) pairNet someCategorical m ω) ∂drawLaw 2 (Measure.infinitePi choiceLaw)| ≤ 6 / 10 ^ 8 := by
  have := stamp_rounding_bounded pair_describes pair_ok someCategorical pair_conservative (Λ := 3) (fun vals hr => by
    obtain ⟨x, hx, y, hy, rfl⟩ := pair_inRange hr
    rw [pair_total hx hy]
    split_ifs <;> norm_num) (by norm_num) (v := "X") (by decide) (L := ["Y"]) (by decide) 0 [1] m
  refine this.trans (by norm_num)

end Demo

end

end PyCTBN
