import Verif.Props.EndTime
import Verif.Props.HillRecovery
import Verif.Props.SampleCtpc

/-!
# Trajectories sampled up to an end time: statistics, estimates and recovery of the network (C201 - C205)
-/

open MeasureTheory ProbabilityTheory Filter
open scoped ENNReal Topology

namespace PyCTBN
open Spec JumpPaths

noncomputable section

/-- From the deviation of a sum to that of something that differs from it by at most 1. -/
theorem end_deviation_mean {Ω : Type} [MeasurableSpace Ω] {μ : Measure Ω} [IsProbabilityMeasure μ] {X Y : Ω → ℝ} (hXY : ∀ ω, |X ω - Y ω| ≤ 1) {T : ℝ} (hT : 1 ≤ T) {B c : ℝ}
    (hB : 0 ≤ B) (h : ∀ {δ : ℝ}, 0 < δ → δ ≤ T → μ {ω | δ ≤ |Y ω - T * c|} ≤ ENNReal.ofReal (B * T / δ ^ 2)) {δ : ℝ} (hδ : 0 < δ) (hδT : δ ≤ T) :
    μ {ω | δ ≤ |X ω - T * c|} ≤ ENNReal.ofReal ((4 * B + 4) * T / δ ^ 2) := by
  rcases le_or_gt 2 δ with h2 | h2
  · have hB' : (0 : ℝ) ≤ 4 * T / δ ^ 2 := by positivity
    refine (measure_mono ?_).trans ((h (half_pos hδ) (by linarith)).trans (ENNReal.ofReal_le_ofReal ?_))
    · intro ω hω
      simp only [Set.mem_ofPred_eq] at hω ⊢
      have h1 := abs_sub_le (X ω) (Y ω) (T * c)
      have := hXY ω
      linarith
    · have : B * T / (δ / 2) ^ 2 = 4 * B * T / δ ^ 2 := by field_simp; ring
      rw [this, add_mul, add_div]
      linarith
  · refine prob_le_one.trans ?_
    rw [← ENNReal.ofReal_one]
    refine ENNReal.ofReal_le_ofReal ?_
    rw [le_div_iff₀ (by positivity)]
    nlinarith

theorem end_mean_of_deviation {Ω : Type} [MeasurableSpace Ω] {μ : Measure Ω} {X : Ω → ℝ} {B c T : ℝ} (hT : 1 ≤ T)
    (h : ∀ {δ : ℝ}, 0 < δ → δ ≤ T → μ {ω | δ ≤ |X ω - T * c|} ≤ ENNReal.ofReal (B * T / δ ^ 2)) {ε : ℝ} (hε : 0 < ε) (hε1 : ε ≤ 1) :
    μ {ω | ε ≤ |X ω / T - c|} ≤ ENNReal.ofReal (B / (ε ^ 2 * T)) := by
  have hn' : (0 : ℝ) < T := by linarith
  have e : {ω | ε ≤ |X ω / T - c|} = {ω | ε * T ≤ |X ω - T * c|} := by
    ext ω
    simp only [Set.mem_ofPred_eq]
    rw [show X ω / T - c = (X ω - T * c) / T by field_simp, abs_div, abs_of_pos hn', le_div_iff₀ hn']
  rw [e]
  refine (h (by positivity) (by nlinarith)).trans (le_of_eq ?_)
  congr 1
  field_simp

section
variable {net : SampleNet} {N : Ctbn} (hD : Describes net N) (hOK : N.OK)
include hD hOK
variable {U : Type} [MeasurableSpace U] {P : Measure U} [IsProbabilityMeasure P] (C : Categorical U P)

/-- Almost surely the clock passes every time. -/
theorem clock_passes (hc : N.Conservative) (hirr : N.Irreducible) (T : ℝ) : ∀ᵐ ω ∂drawLaw N.vars.length P, ∃ n, T ≤ clockAfter 0 (sampledMoves net C n ω) := by
  obtain ⟨π, hπ, -⟩ := sample_stationary hD hOK hc hirr
  have hp := pace_pos hOK (usable_inverse hD hOK (leaves_of_conservative hD hOK hc)) hπ
  obtain ⟨B, hB, h⟩ := clock_deviation hD hOK C hc hirr hπ
  set p := pace N N.inverseRates π
  rw [ae_iff]
  refine le_antisymm ?_ zero_le
  have hlim : Tendsto (fun n : ℕ => ENNReal.ofReal (4 * p ^ 2 * B / n)) atTop (𝓝 0) := by
    rw [← ENNReal.ofReal_zero]
    exact ENNReal.tendsto_ofReal (tendsto_const_div_atTop_nhds_zero_nat _)
  refine ge_of_tendsto hlim ?_
  obtain ⟨n₀, hn₀⟩ := exists_nat_gt (max 0 (2 * p * (T + 1)))
  filter_upwards [eventually_ge_atTop n₀] with n hn
  have hn1 : max 0 (2 * p * (T + 1)) < n := hn₀.trans_le (by exact_mod_cast hn)
  have hnpos : (0 : ℝ) < n := (le_max_left _ _).trans_lt hn1
  have hn2 : 2 * p * (T + 1) < n := (le_max_right _ _).trans_lt hn1
  refine (measure_mono (fun ω hω => ?_)).trans ((h n (δ := n / (2 * p)) (by positivity)).trans (le_of_eq ?_))
  · simp only [Set.mem_ofPred_eq, not_exists, not_le] at hω ⊢
    have h1 := hω n
    have h2 := abs_le.1 (round4R_near (clockAfter 0 (sampledMoves net C n ω)))
    have h3 : T + 1 < n / (2 * p) := by rw [lt_div_iff₀ (by positivity)]; linarith
    have h4 : (n : ℝ) / p = n / (2 * p) + n / (2 * p) := by field_simp; ring
    rw [abs_sub_comm, h4]
    exact le_trans (by linarith [h2.2]) (le_abs_self _)
  · congr 1
    field_simp
    ring

/-- **C201** (termination).  Almost surely `CTBN_Sample(t_end = T)` returns. -/
theorem end_sample_returns (hc : N.Conservative) (hirr : N.Irreducible) {T : ℝ} (hT : 0 < T) :
    ∀ᵐ ω ∂drawLaw N.vars.length P, ∃ fuel, net.sampleStopR T (-1) (drawsAt C ω) fuel = .ok (endRows net C T ω) := by
  have hpos := leaves_of_conservative hD hOK hc
  filter_upwards [clock_passes hD hOK C hc hirr T, ae_all_iff.2 (fun n => sampled_moves_genuine hD hOK C hpos n)] with ω ⟨n, hn⟩ hgen
  obtain ⟨ms, h1, -, h3⟩ := hgen n
  have h0 : sampledMoves net C 0 ω = [] := rfl
  obtain ⟨⟨fuel, hf⟩, -⟩ := endMoves_between hD hOK C hT (a := 0) (Nat.zero_le n) h1 (fun m hm => by obtain ⟨-, -, -, h⟩ := h3 m hm; exact h.le) (by rw [h0]; simpa [clockAfter] using hT) hn
  have := (sampleStopR_ok C).2 ⟨_, hf, rfl⟩
  refine ⟨fuel, ?_⟩
  rw [endRows_eq C this]
  exact this

omit [IsProbabilityMeasure P] in
theorem endRows_sums {v : Label} (hv : v ∈ N.vars) {L : List Label} (hL : ∀ p ∈ L, p ∈ N.vars) {x y : Nat} (hxy : y ≠ x) (u : List Nat) (T : ℝ)
    (ω : ℕ → (Fin N.vars.length → ℝ) × U) :
    (rawResidence N.vars [endRows net C T ω] v L x u : ℝ)
      = listTotal (linStep (fun _ _ => 0) (caseInd N v L x u)) (N.vars.map (fun _ => 0)) 0 (endMoves net C T ω) ∧
    (rawTransitions N.vars [endRows net C T ω] v L x y u : ℝ)
      ≤ listTotal (linStep (caseStep N v L x y u) (fun _ => 0)) (N.vars.map (fun _ => 0)) 0 (endMoves net C T ω) ∧
    listTotal (linStep (caseStep N v L x y u) (fun _ => 0)) (N.vars.map (fun _ => 0)) 0 (endMoves net C T ω)
      ≤ rawTransitions N.vars [endRows net C T ω] v L x y u + 1 := by
  rcases endRows_cases (net := net) C T ω with h | ⟨h, h'⟩
  · rw [h, hD.vnames]
    exact rows_sums hOK hv hL hxy u _ (by simp)
  · rw [h, h']
    simp [rawTransitions, rawResidence, consecutive, listTotal]

theorem caseInd_bounded (v : Label) (L : List Label) (x : Nat) (u vals : List Nat) : |caseInd N v L x u vals| ≤ 1 := by
  unfold caseInd; split_ifs <;> simp

theorem caseStep_bounded (v : Label) (L : List Label) (x y : Nat) (u vals : List Nat) (s : Step) : |caseStep N v L x y u vals s| ≤ 1 := by
  unfold caseStep; split_ifs <;> simp

theorem end_residence_deviation (hc : N.Conservative) (hirr : N.Irreducible) {π : List Nat → ℝ} (hπ : Stationary N N.inverseRates π)
    {v : Label} (hv : v ∈ N.vars) {L : List Label} (hL : ∀ p ∈ L, p ∈ N.vars) (x : Nat) (u : List Nat) :
    ∃ B, 0 ≤ B ∧ ∀ {T δ : ℝ}, 1 ≤ T → 0 < δ → δ ≤ T → drawLaw N.vars.length P {ω |
      δ ≤ |(rawResidence N.vars [endRows net C T ω] v L x u : ℝ) - T * share N π v L x u|} ≤ ENNReal.ofReal (B * T / δ ^ 2) := by
  obtain ⟨B, hB, h⟩ := end_total_deviation hD hOK C hc hirr hπ (b := fun _ _ => 0) (w := caseInd N v L x u) (A := 1) zero_le_one (by simp) (caseInd_bounded hD hOK v L x u)
    (c := share N π v L x u) (by
      unfold share caseInd
      refine Finset.sum_congr rfl (fun a _ => ?_)
      split_ifs <;> simp)
  refine ⟨B, hB, fun {T δ} hT hδ hδT => ?_⟩
  simp only [(endRows_sums hD hOK C hv hL (x := x) (y := x + 1) (by omega) u T _).1]
  exact h hT hδ hδT

theorem end_transitions_deviation (hc : N.Conservative) (hirr : N.Irreducible) {π : List Nat → ℝ} (hπ : Stationary N N.inverseRates π)
    {v : Label} (hv : v ∈ N.vars) {L : List Label} (hL : ∀ p ∈ L, p ∈ N.vars) {x y : Nat} (hxy : y ≠ x) (hy : y < N.card v) (u : List Nat) :
    ∃ B, 0 ≤ B ∧ ∀ {T δ : ℝ}, 1 ≤ T → 0 < δ → δ ≤ T → drawLaw N.vars.length P {ω |
      δ ≤ |(rawTransitions N.vars [endRows net C T ω] v L x y u : ℝ) - T * flux N N.inverseRates π v L x y u|} ≤ ENNReal.ofReal (B * T / δ ^ 2) := by
  obtain ⟨B, hB, h⟩ := end_total_deviation hD hOK C hc hirr hπ (b := caseStep N v L x y u) (w := fun _ => 0) (A := 1) zero_le_one (caseStep_bounded hD hOK v L x y u) (by simp)
    (c := flux N N.inverseRates π v L x y u) (by
      unfold flux
      refine Finset.sum_congr rfl (fun a _ => ?_)
      rw [sum_caseStep hOK a hv L x hy u, add_zero]
      split_ifs <;> simp)
  refine ⟨4 * B + 4, by positivity, fun {T δ} hT hδ hδT => ?_⟩
  have hdraw : IsProbabilityMeasure (drawLaw N.vars.length P) := by unfold drawLaw; infer_instance
  refine end_deviation_mean (fun ω => ?_) hT hB (fun hδ hδT => h hT hδ hδT) hδ hδT
  obtain ⟨-, h1, h2⟩ := endRows_sums hD hOK C hv hL hxy u T ω
  rw [abs_le]
  constructor <;> linarith

/-- **C202** (fluctuations).  Given the states of all parents, the number of observed moves and the rate of the process times the observed time differ
only by something of the order of the square root of `T`. -/
theorem end_rate_deviation (hc : N.Conservative) (hirr : N.Irreducible) {v : Label} (hv : v ∈ N.vars) {L : List Label} (hL : ∀ p ∈ L, p ∈ N.vars)
    (hP : ∀ p ∈ N.parents v, p ∈ L) {x y : Nat} (hxy : y ≠ x) (hy : y < N.card v) (u : List Nat) :
    ∃ B, 0 ≤ B ∧ ∀ {T δ : ℝ}, 1 ≤ T → 0 < δ → δ ≤ T → drawLaw N.vars.length P {ω |
      δ ≤ |(rawTransitions N.vars [endRows net C T ω] v L x y u : ℝ)
        - N.inverseAt v (N.parentPart v L u) x y * (rawResidence N.vars [endRows net C T ω] v L x u : ℝ)|} ≤ ENNReal.ofReal (B * T / δ ^ 2) := by
  obtain ⟨π, hπ, -, -⟩ := sample_stationary hD hOK hc hirr
  set r := N.inverseAt v (N.parentPart v L u) x y with hr
  obtain ⟨B, hB, h⟩ := end_total_deviation hD hOK C hc hirr hπ (b := caseStep N v L x y u) (w := fun a => -r * caseInd N v L x u a) (A := 1 + |r|) (by positivity)
    (fun vals s => (caseStep_bounded hD hOK v L x y u vals s).trans (by linarith [abs_nonneg r]))
    (fun vals => by
      rw [abs_mul, abs_neg]
      have := mul_le_mul_of_nonneg_left (caseInd_bounded hD hOK v L x u vals) (abs_nonneg r)
      linarith) (c := 0) (by
    refine Finset.sum_eq_zero (fun a ha => ?_)
    rw [sum_caseStep hOK a hv L x hy u]
    unfold caseInd
    split_ifs with hcase
    · rw [inverse_at hD hOK hc hv hxy ((mem_joint hOK).1 ha) (parentStates_of hP hcase), ← hr]; ring
    · simp)
  refine ⟨4 * B + 4, by positivity, fun {T δ} hT hδ hδT => ?_⟩
  have hdraw : IsProbabilityMeasure (drawLaw N.vars.length P) := by unfold drawLaw; infer_instance
  have := end_deviation_mean (μ := drawLaw N.vars.length P) (c := 0) (X := fun ω => (rawTransitions N.vars [endRows net C T ω] v L x y u : ℝ) - r * (rawResidence N.vars [endRows net C T ω] v L x u : ℝ))
    (Y := fun ω => listTotal (linStep (caseStep N v L x y u) (fun a => -r * caseInd N v L x u a)) (N.vars.map (fun _ => 0)) 0 (endMoves net C T ω))
    (fun ω => ?_) hT hB (fun hδ hδT => h hT hδ hδT) hδ hδT
  · simpa using this
  · obtain ⟨h0, h1, h2⟩ := endRows_sums hD hOK C hv hL hxy u T ω
    rw [listTotal_sub, h0, abs_le]
    constructor <;> linarith

/-- **C201** (times).  The share of the time `T` that a trajectory sampled with `t_end = T` shows in given circumstances (a variable in a state, some others in given
states) converges in probability, with an explicit rate, to the stationary probability of these circumstances. -/
theorem end_residence_mean (hc : N.Conservative) (hirr : N.Irreducible) {π : List Nat → ℝ} (hπ : Stationary N N.inverseRates π)
    {v : Label} (hv : v ∈ N.vars) {L : List Label} (hL : ∀ p ∈ L, p ∈ N.vars) (x : Nat) (u : List Nat) :
    ∃ B : ℝ, ∀ {T ε : ℝ}, 1 ≤ T → 0 < ε → ε ≤ 1 → drawLaw N.vars.length P {ω |
      ε ≤ |(rawResidence N.vars [endRows net C T ω] v L x u : ℝ) / T - share N π v L x u|} ≤ ENNReal.ofReal (B / (ε ^ 2 * T)) := by
  obtain ⟨B, -, h⟩ := end_residence_deviation hD hOK C hc hirr hπ hv hL x u
  exact ⟨B, fun {T ε} hT hε hε1 => end_mean_of_deviation hT (fun hδ hδT => h hT hδ hδT) hε hε1⟩

/-- **C201** (transitions).  The number per unit of time of a variable's transitions between two given states, in given states of
some others, converges in probability, with an explicit rate, to its stationary value. -/
theorem end_transitions_mean (hc : N.Conservative) (hirr : N.Irreducible) {π : List Nat → ℝ} (hπ : Stationary N N.inverseRates π)
    {v : Label} (hv : v ∈ N.vars) {L : List Label} (hL : ∀ p ∈ L, p ∈ N.vars) {x y : Nat} (hxy : y ≠ x) (hy : y < N.card v) (u : List Nat) :
    ∃ B : ℝ, ∀ {T ε : ℝ}, 1 ≤ T → 0 < ε → ε ≤ 1 → drawLaw N.vars.length P {ω |
      ε ≤ |(rawTransitions N.vars [endRows net C T ω] v L x y u : ℝ) / T - flux N N.inverseRates π v L x y u|} ≤ ENNReal.ofReal (B / (ε ^ 2 * T)) := by
  obtain ⟨B, -, h⟩ := end_transitions_deviation hD hOK C hc hirr hπ hv hL hxy hy u
  exact ⟨B, fun {T ε} hT hε hε1 => end_mean_of_deviation hT (fun hδ hδT => h hT hδ hδT) hε hε1⟩

omit hD hOK in
theorem end_tendsto_of_bound {f : ℝ → ℝ≥0∞} {B ε : ℝ} (h : ∀ T, 1 ≤ T → f T ≤ ENNReal.ofReal (B / (ε ^ 2 * T))) : Tendsto f atTop (𝓝 0) := by
  have h1 : Tendsto (fun T : ℝ => ENNReal.ofReal (B / (ε ^ 2 * T))) atTop (𝓝 0) := by
    rw [← ENNReal.ofReal_zero]
    refine ENNReal.tendsto_ofReal ?_
    have : Tendsto (fun T : ℝ => B / ε ^ 2 / T) atTop (𝓝 0) := tendsto_const_nhds.div_atTop tendsto_id
    simpa only [div_div] using this
  exact tendsto_of_tendsto_of_tendsto_of_le_of_le' tendsto_const_nhds h1 (.of_forall (fun _ => zero_le)) (eventually_atTop.2 ⟨1, h⟩)

/-- The rows of a list of genuine moves are usable. -/
theorem usable_of_moves (hpos : N.Leaves) {ms : List Move} (h3 : ∀ m ∈ ms, GenuineMove N m) (hne : ms ≠ []) :
    UsableRows N (SampleNet.terminate (SampleNet.rowsOfMoves 0 (N.vars.map (fun _ => 0)) ms)) := by
  have hU := usable_inverse hD hOK hpos
  obtain ⟨r1, r2, r3⟩ := rowsOfMoves_valid (N := N) (fun vals hr m ⟨v, v1, v2, _⟩ => hU.closed vals hr ⟨m.var, m.target⟩ (mem_steps.2 ⟨v, v1, v2⟩)) ms h3 0 _
    (zeros_inRange hOK)
  have hl : 1 ≤ ms.length := List.length_pos_iff.2 hne
  generalize SampleNet.rowsOfMoves 0 (N.vars.map (fun _ => 0)) ms = rows at *
  rcases List.eq_nil_or_concat rows with rfl | ⟨l, a, rfl⟩
  · simp at r1
  rw [List.concat_eq_append] at *
  have hshape : SampleNet.terminate (l ++ [a]) = l.map (fun r => (r.1, r.2.map (fun x : Nat => (x : ℤ)))) ++ [(a.1, N.vars.map (fun _ => (-1 : ℤ)))] := by
    unfold SampleNet.terminate
    rw [List.dropLast_concat, List.getLast?_concat]
    simp only [Option.toList_some, List.map_cons, List.map_nil, List.append_cancel_left_eq, List.cons.injEq, Prod.mk.injEq, true_and, and_true]
    rw [List.map_const', List.map_const', (r2 a (by simp)).1.1]
  obtain ⟨s1, s2⟩ := shape_in_range hOK hshape (fun r hr => (r2 r (by simp [hr])).1)
  refine ⟨?_, s1, s2, sampled_durations_nonneg ?_⟩
  · rw [hshape]
    simp at r1 ⊢
    omega
  · rw [terminate_times, List.pairwise_map]
    exact r3

/-- Trajectories sampled up to a late time are usable with high probability. -/
theorem end_rows_usable (hc : N.Conservative) (hirr : N.Irreducible) : Likely (drawLaw N.vars.length P) atTop (fun (T : ℝ) ω => UsableRows N (endRows net C T ω)) := by
  have hpos := leaves_of_conservative hD hOK hc
  obtain ⟨π, hπ, -⟩ := sample_stationary hD hOK hc hirr
  have hp := pace_pos hOK (usable_inverse hD hOK hpos) hπ
  obtain ⟨B, hB, h⟩ := clock_deviation hD hOK C hc hirr hπ
  set p := pace N N.inverseRates π
  have hfirst : Likely (drawLaw N.vars.length P) atTop (fun (T : ℝ) ω => clockAfter 0 (sampledMoves net C 1 ω) < T) := by
    have hlim : Tendsto (fun T : ℝ => ENNReal.ofReal (B * 4 / T / T)) atTop (𝓝 0) := by
      rw [← ENNReal.ofReal_zero]
      exact ENNReal.tendsto_ofReal ((tendsto_const_nhds.div_atTop tendsto_id).div_atTop tendsto_id)
    refine tendsto_of_tendsto_of_tendsto_of_le_of_le' tendsto_const_nhds hlim (.of_forall (fun _ => zero_le)) ?_
    filter_upwards [eventually_ge_atTop (2 * (1 + 1 / p)), eventually_gt_atTop 0] with T hT hT0
    refine (measure_mono (fun ω hω => ?_)).trans ((h 1 (δ := T / 2) (by positivity)).trans (le_of_eq ?_))
    · simp only [Set.mem_ofPred_eq, not_lt] at hω ⊢
      have h2 := abs_le.1 (round4R_near (clockAfter 0 (sampledMoves net C 1 ω)))
      rw [Nat.cast_one]
      exact le_trans (by linarith [h2.1]) (le_abs_self _)
    · congr 1
      rw [Nat.cast_one]
      field_simp
      norm_num
  have hend : Likely (drawLaw N.vars.length P) atTop (fun (T : ℝ) ω => (∃ n, T ≤ clockAfter 0 (sampledMoves net C n ω)) ∧
      ∀ n, ∃ ms, net.movesR n (drawsAt C ω) net.initClock = .ok ms ∧ ms.length = n ∧ ∀ m ∈ ms, GenuineMove N m) :=
    Likely.of_ae (.of_forall (fun T => (clock_passes hD hOK C hc hirr T).and (ae_all_iff.2 (fun n => sampled_moves_genuine hD hOK C hpos n))))
  refine (hfirst.and hend).mono ?_
  filter_upwards [eventually_gt_atTop 0] with T hT ω ⟨h1, ⟨n, hn⟩, hgen⟩
  obtain ⟨ms1, f1, f2, f3⟩ := hgen 1
  have e1 : sampledMoves net C 1 ω = ms1 := by unfold sampledMoves movesOf; rw [f1]
  have hn1 : 1 ≤ n := by
    by_contra hn0
    obtain rfl : n = 0 := by omega
    have : clockAfter 0 (sampledMoves net C 0 ω) = 0 := by
      have h0 : sampledMoves net C 0 ω = [] := rfl
      rw [h0]; simp [clockAfter]
    linarith
  obtain ⟨ms, g1, g2, g3⟩ := hgen n
  obtain ⟨⟨fuel, hf⟩, k1, k2, k3⟩ := endMoves_between hD hOK C hT hn1 g1 (fun m hm => by obtain ⟨-, -, -, h⟩ := g3 m hm; exact h.le) h1 hn
  rw [endRows_eq C ((sampleStopR_ok C).2 ⟨_, hf, rfl⟩), hD.vnames]
  refine usable_of_moves hD hOK hpos (fun m hm => g3 m (by rw [← k3]; exact k2.subset hm)) ?_
  intro hnil
  rw [hnil, e1] at k1
  rw [List.prefix_nil.1 k1] at f2
  simp at f2

/-- Rows sampled with `t_end = T` for growing `T`. -/
theorem end_typical (hc : N.Conservative) (hirr : N.Irreducible) {π : List Nat → ℝ} (hπ : Stationary N N.inverseRates π) :
    TypicalRows N π (drawLaw N.vars.length P) atTop (fun T : ℝ => T) 1 (fun T ω => [endRows net C T ω]) where
  grows := tendsto_id
  pos := one_pos
  close {ε} hε {v} hv {L} hL x u := by
    have hε' : 0 < min ε 1 := lt_min hε one_pos
    refine ⟨?_, fun y hy hyx => ⟨?_, fun hP => ?_⟩⟩
    · obtain ⟨B, h⟩ := end_residence_mean hD hOK C hc hirr hπ hv hL x u
      have : Likely (drawLaw N.vars.length P) atTop (fun (T : ℝ) ω => |(rawResidence N.vars [endRows net C T ω] v L x u : ℝ) / T - share N π v L x u| < min ε 1) := by
        unfold Likely
        simp only [not_lt]
        exact end_tendsto_of_bound (fun T hT => h hT hε' (min_le_right _ _))
      rw [div_one]
      exact this.mono (.of_forall (fun T ω h => h.trans_le (min_le_left _ _)))
    · obtain ⟨B, h⟩ := end_transitions_mean hD hOK C hc hirr hπ hv hL hyx hy u
      have : Likely (drawLaw N.vars.length P) atTop (fun (T : ℝ) ω => |(rawTransitions N.vars [endRows net C T ω] v L x y u : ℝ) / T
          - flux N N.inverseRates π v L x y u| < min ε 1) := by
        unfold Likely
        simp only [not_lt]
        exact end_tendsto_of_bound (fun T hT => h hT hε' (min_le_right _ _))
      rw [div_one]
      exact this.mono (.of_forall (fun T ω h => h.trans_le (min_le_left _ _)))
    · obtain ⟨B, hB, h⟩ := end_rate_deviation hD hOK C hc hirr hv hL hP hyx hy u
      unfold Likely
      simp only [not_lt]
      have hlim : Tendsto (fun T : ℝ => ENNReal.ofReal (B / ε / Real.log T)) atTop (𝓝 0) := by
        rw [← ENNReal.ofReal_zero]
        exact ENNReal.tendsto_ofReal (Real.tendsto_log_atTop.const_div_atTop _)
      refine tendsto_of_tendsto_of_tendsto_of_le_of_le' tendsto_const_nhds hlim (.of_forall (fun _ => zero_le)) ?_
      have hlog := Real.isLittleO_log_id_atTop.def (c := 1 / ε) (by positivity)
      filter_upwards [eventually_ge_atTop 2, hlog] with T hT hlT
      have hl : 0 < Real.log T := Real.log_pos (by linarith)
      have hml : 0 < T * Real.log T := by positivity
      have hδ : 0 < Real.sqrt (ε * (T * Real.log T)) := Real.sqrt_pos.2 (by positivity)
      have hδT : Real.sqrt (ε * (T * Real.log T)) ≤ T := by
        refine Real.sqrt_le_iff.2 ⟨by linarith, ?_⟩
        rw [Real.norm_of_nonneg hl.le, id, Real.norm_of_nonneg (by linarith), one_div, inv_mul_eq_div, le_div_iff₀ hε] at hlT
        nlinarith
      refine (measure_mono (fun ω hω => ?_)).trans ((h (by linarith) hδ hδT).trans (le_of_eq ?_))
      · simp only [Set.mem_ofPred_eq] at hω ⊢
        rw [le_div_iff₀ hml] at hω
        exact Real.sqrt_le_sqrt hω |>.trans (le_of_eq (Real.sqrt_sq_eq_abs _))
      · rw [Real.sq_sqrt (by positivity)]
        congr 1
        field_simp
  usable := (end_rows_usable hD hOK C hc hirr).mono (.of_forall (fun _ _ h => usableData_single h))

/-! ## C202 -/

/-- **C202.**  What the library estimates for the intensity of a variable's move, given the states of any list of other variables, converges in probability, as `t_end` grows,
to the stationary mean rate of that move in these circumstances. -/
theorem end_estimate_limit (hc : N.Conservative) (hirr : N.Irreducible) {π : List Nat → ℝ} (hπ : Stationary N N.inverseRates π)
    {v : Label} (hv : v ∈ N.vars) {L : List Label} (hL : ∀ p ∈ L, p ∈ N.vars) {x y : Nat} (hxy : y ≠ x) (hy : y < N.card v) (u : List Nat)
    (hshare : 0 < share N π v L x u) {ε : ℝ} (hε : 0 < ε) :
    Tendsto (fun T => drawLaw N.vars.length P {ω | ε ≤ |((rawTransitions N.vars [endRows net C T ω] v L x y u : ℝ) + 1)
      / ((rawResidence N.vars [endRows net C T ω] v L x u : ℝ) + 1) - flux N N.inverseRates π v L x y u / share N π v L x u|}) atTop (𝓝 0) := by
  have h := typical_estimate_limit (end_typical hD hOK C hc hirr hπ) hv hL hxy hy u hshare hε
  unfold Likely at h
  simpa only [not_lt] using h

/-- **C202** (with the parents).  Given the states of all parents - and possibly of others, which do not matter -, the library's estimate converges in probability, as `t_end` grows,
to the intensity divided by the square of the exit intensity. -/
theorem end_estimate_parents (hc : N.Conservative) (hirr : N.Irreducible) {v : Label} (hv : v ∈ N.vars) {L : List Label} (hL : ∀ p ∈ L, p ∈ N.vars)
    (hP : ∀ p ∈ N.parents v, p ∈ L) {x y : Nat} (hxy : y ≠ x) (hy : y < N.card v) {vals : List Nat} (hr : N.InRange vals) (hx : N.state vals v = x)
    {ε : ℝ} (hε : 0 < ε) :
    Tendsto (fun T => drawLaw N.vars.length P {ω | ε ≤ |((rawTransitions N.vars [endRows net C T ω] v L x y (L.map (N.state vals)) : ℝ) + 1)
      / ((rawResidence N.vars [endRows net C T ω] v L x (L.map (N.state vals)) : ℝ) + 1) - N.inverseAt v (N.parentStates vals v) x y|}) atTop (𝓝 0) := by
  obtain ⟨π, hπ, hpos, -⟩ := sample_stationary hD hOK hc hirr
  have hcase : Circumstances N v L x (L.map (N.state vals)) vals := ⟨hx, rfl⟩
  have hshare : 0 < share N π v L x (L.map (N.state vals)) := by
    unfold share
    refine Finset.sum_pos' (fun a ha => ?_) ⟨vals, (mem_joint hOK).2 hr, ?_⟩
    · split_ifs
      · exact hπ.nonneg a ha
      · exact le_rfl
    · rw [if_pos hcase]; exact hpos vals hr
  have h := end_estimate_limit hD hOK C hc hirr hπ hv hL hxy hy (L.map (N.state vals)) hshare hε
  rw [flux_of_parents hD hOK hc hv hP hxy, mul_div_cancel_right₀ _ hshare.ne', ← (parentStates_of hP hcase).2] at h
  exact h

/-! ## C203, C204, C205 -/

/-- **C203** As C195, for trajectories sampled up to an end time: the probability that importing a trajectory sampled with `t_end = T` and score-based estimation by tabu search do
not return exactly the edges of the network tends to 0 as `T` grows. -/
theorem end_network_recovered (hcl : NoSuffixClash N.vars) (hT : "Time" ∉ N.vars) (hc : N.Conservative) (hpos : N.AllPositive) {c : Nat} (hc2 : 2 ≤ c)
    (hcard : ∀ v ∈ N.vars, N.card v = c) (hns : ∀ v ∈ N.vars, v ∉ N.parents v) {π : List Nat → ℝ} (hπ : Stationary N N.inverseRates π)
    (hmat : ∀ n ∈ N.vars, ∀ p ∈ N.parents n, ∀ K : List Label, (∀ q ∈ K, q ∈ N.vars) → p ∉ K → n ∉ K → StationaryMatters N N.inverseRates π n K p)
    (es : List Edge) {τ α : ℝ} (hτ : 0 < τ) (hα : 0 < α) {R : List (List Bool)} {known : List Edge}
    (hR : buildRemovable (builtStruct N.vars (N.vars.map N.card) es) N.vars.length known = .ok R) (hknown : ∀ e ∈ known, e ∈ N.edges)
    (hcand : ∀ n ∈ N.vars, ∃ q ∈ N.vars, q ≠ n ∧ (q, n) ∉ known) {a : SBArgs}
    (hopt : a.optimizer = "tabu") (hmp : a.maxParents = none) (htl : ∀ k, a.tabuLength = some k → (N.vars.length : ℤ) - 1 ≤ k)
    (htd : ∀ k, a.tabuDuration = some k → (N.vars.length : ℤ) - 1 ≤ |k|) (hpat : ∀ m, a.patience = some m → (N.vars.length : ℤ) - 1 ≤ m + 1)
    (hit : (N.vars.length - 1) * 2 ^ (N.vars.length - 1) ≤ a.iterations) :
    Tendsto (fun T => drawLaw N.vars.length P {ω | ¬ Recovers N es τ α R a [endRows net C T ω]}) atTop (𝓝 0) :=
  typical_network_recovered hD hOK (end_typical hD hOK C hc (irreducible_of_allPositive hOK hpos) hπ) hcl hT hc hpos hc2 hcard hns hπ hmat es hτ hα hR hknown hcand hopt hmp htl htd hpat hit

/-- **C203** (from the intensities).  It is enough that every parent tells. -/
theorem end_telling_recovered (hcl : NoSuffixClash N.vars) (hT : "Time" ∉ N.vars) (hc : N.Conservative) (hpos : N.AllPositive) {c : Nat} (hc2 : 2 ≤ c)
    (hcard : ∀ v ∈ N.vars, N.card v = c) (hns : ∀ v ∈ N.vars, v ∉ N.parents v) (htell : ∀ n ∈ N.vars, ∀ p ∈ N.parents n, Tells N p n)
    (es : List Edge) {τ α : ℝ} (hτ : 0 < τ) (hα : 0 < α) {R : List (List Bool)} {known : List Edge}
    (hR : buildRemovable (builtStruct N.vars (N.vars.map N.card) es) N.vars.length known = .ok R) (hknown : ∀ e ∈ known, e ∈ N.edges)
    (hcand : ∀ n ∈ N.vars, ∃ q ∈ N.vars, q ≠ n ∧ (q, n) ∉ known) {a : SBArgs}
    (hopt : a.optimizer = "tabu") (hmp : a.maxParents = none) (htl : ∀ k, a.tabuLength = some k → (N.vars.length : ℤ) - 1 ≤ k)
    (htd : ∀ k, a.tabuDuration = some k → (N.vars.length : ℤ) - 1 ≤ |k|) (hpat : ∀ m, a.patience = some m → (N.vars.length : ℤ) - 1 ≤ m + 1)
    (hit : (N.vars.length - 1) * 2 ^ (N.vars.length - 1) ≤ a.iterations) :
    Tendsto (fun T => drawLaw N.vars.length P {ω | ¬ Recovers N es τ α R a [endRows net C T ω]}) atTop (𝓝 0) := by
  have hirr := irreducible_of_allPositive hOK hpos
  obtain ⟨π, hπ, -⟩ := sample_stationary hD hOK hc hirr
  exact end_network_recovered hD hOK C hcl hT hc hpos hc2 hcard hns hπ
    (fun n hn p hp K hK hpK hnK => tells_matters hD hOK hc hirr hπ hn hp (by rintro rfl; exact hns _ hn hp) (htell n hn p hp) hK hpK hnK)
    es hτ hα hR hknown hcand hopt hmp htl htd hpat hit

/-- **C204** As C197, for trajectories sampled up to an end time: the probability that constraint-based estimation does not succeed with a network that
has every edge of the network sampled tends to 0 as `t_end` grows. -/
theorem end_edges_kept (hcl : NoSuffixClash N.vars) (hT : "Time" ∉ N.vars) (hc : N.Conservative) (hpos : N.AllPositive) {c : Nat} (hc0 : 0 < c)
    (hcard : ∀ v ∈ N.vars, N.card v = c) (hns : ∀ v ∈ N.vars, v ∉ N.parents v) {π : List Nat → ℝ} (hπ : Stationary N N.inverseRates π)
    (hmat : ∀ n ∈ N.vars, ∀ p ∈ N.parents n, ∀ K : List Label, (∀ q ∈ K, q ∈ N.vars) → p ∉ K → n ∉ K → StationaryMatters N N.inverseRates π n K p)
    (es : List Edge) {Q : IndepParams} (hQ : QuantilesTighten Q c) (known : List Edge) :
    Tendsto (fun T => drawLaw N.vars.length P {ω | ¬ KeepsEdges N es Q known [endRows net C T ω]}) atTop (𝓝 0) :=
  typical_edges_kept hD hOK (end_typical hD hOK C hc (irreducible_of_allPositive hOK hpos) hπ).toClose hcl hT hc hpos hc0 hcard hns hπ hmat es hQ known

/-- **C204** (from the intensities).  It is enough that every parent tells. -/
theorem end_telling_kept (hcl : NoSuffixClash N.vars) (hT : "Time" ∉ N.vars) (hc : N.Conservative) (hpos : N.AllPositive) {c : Nat} (hc0 : 0 < c)
    (hcard : ∀ v ∈ N.vars, N.card v = c) (hns : ∀ v ∈ N.vars, v ∉ N.parents v) (htell : ∀ n ∈ N.vars, ∀ p ∈ N.parents n, Tells N p n)
    (es : List Edge) {Q : IndepParams} (hQ : QuantilesTighten Q c) (known : List Edge) :
    Tendsto (fun T => drawLaw N.vars.length P {ω | ¬ KeepsEdges N es Q known [endRows net C T ω]}) atTop (𝓝 0) := by
  have hirr := irreducible_of_allPositive hOK hpos
  obtain ⟨π, hπ, -⟩ := sample_stationary hD hOK hc hirr
  exact end_edges_kept hD hOK C hcl hT hc hpos hc0 hcard hns hπ
    (fun n hn p hp K hK hpK hnK => tells_matters hD hOK hc hirr hπ hn hp (by rintro rfl; exact hns _ hn hp) (htell n hn p hp) hK hpK hnK) es hQ known

/-- **C205** As C200, for trajectories sampled up to an end time. -/
theorem end_hill_recovered {ε : ℝ} (hε : 0 < ε) (hcl : NoSuffixClash N.vars) (hT : "Time" ∉ N.vars) (hc : N.Conservative) (hpos : N.AllPositive) {c : Nat} (hc2 : 2 ≤ c)
    (hcard : ∀ v ∈ N.vars, N.card v = c) (hns : ∀ v ∈ N.vars, v ∉ N.parents v) {π : List Nat → ℝ} (hπ : Stationary N N.inverseRates π)
    (hmat : ∀ n ∈ N.vars, ∀ p ∈ N.parents n, ∀ K : List Label, (∀ q ∈ K, q ∈ N.vars) → p ∉ K → n ∉ K → StationaryMatters N N.inverseRates π n K p)
    (es : List Edge) {τ α : ℝ} (hτ : 0 < τ) (hα : 0 < α) {R : List (List Bool)} {known : List Edge}
    (hR : buildRemovable (builtStruct N.vars (N.vars.map N.card) es) N.vars.length known = .ok R) (hknown : ∀ e ∈ known, e ∈ N.edges)
    (hcand : ∀ n ∈ N.vars, ∃ q ∈ N.vars, q ≠ n ∧ (q, n) ∉ known) :
    ∃ T₀, ∀ a : SBArgs, SaneArgs a → a.optimizer ≠ "tabu" → a.maxParents = none → a.patience = none → T₀ ≤ a.iterations →
    ∀ {Ω : Type} [MeasurableSpace Ω] (Q : Measure Ω) [IsProbabilityMeasure Q] (X : Label → ℕ → Ω → ℕ),
    (∀ n ∈ N.vars, UniformChoices Q (openParents (builtStruct N.vars (N.vars.map N.card) es) known n).card (X n)) → ∀ drop : Ω → Label → ℕ → ℕ,
    Tendsto (fun T => drawLaw N.vars.length P {ω | ¬ ProbablyRecovers N es τ α R a Q X drop ε [endRows net C T ω]}) atTop (𝓝 0) :=
  typical_hill_recovered hD hOK (end_typical hD hOK C hc (irreducible_of_allPositive hOK hpos) hπ) hε hcl hT hc hpos hc2 hcard hns hπ hmat es hτ hα hR hknown hcand

end

/-! ## Non-vacuity -/

namespace Demo

/-- C201: 9 of 22 units of time are spent with `Y` in 0; 13 transitions of `Y` from 0 to 1 happen in 22 units. -/
example : (∃ B : ℝ, ∀ {T ε : ℝ}, 1 ≤ T → 0 < ε → ε ≤ 1 → drawLaw 2 (Measure.infinitePi choiceLaw) {ω |
      ε ≤ |(rawResidence ["X", "Y"] [endRows pairNet someCategorical T ω] "Y" [] 0 [] : ℝ) / T - 9 / 22|} ≤ ENNReal.ofReal (B / (ε ^ 2 * T))) ∧
    ∃ B : ℝ, ∀ {T ε : ℝ}, 1 ≤ T → 0 < ε → ε ≤ 1 → drawLaw 2 (Measure.infinitePi choiceLaw) {ω |
      ε ≤ |(rawTransitions ["X", "Y"] [endRows pairNet someCategorical T ω] "Y" [] 0 1 [] : ℝ) / T - 13 / 22|} ≤ ENNReal.ofReal (B / (ε ^ 2 * T)) := by
  have h1 := end_residence_mean pair_describes pair_ok someCategorical pair_conservative pair_irreducible pair_stationary (v := "Y") (by decide) (L := []) (by simp) 0 []
  have h2 := end_transitions_mean pair_describes pair_ok someCategorical pair_conservative pair_irreducible pair_stationary (v := "Y") (by decide) (L := []) (by simp)
    (x := 0) (y := 1) (by decide) (by decide) []
  rw [pair_share] at h1
  rw [pair_flux] at h2
  exact ⟨h1, h2⟩

example : ∀ᵐ ω ∂drawLaw 2 (Measure.infinitePi choiceLaw), ∃ fuel,
    pairNet.sampleStopR 10 (-1) (drawsAt someCategorical ω) fuel = .ok (endRows pairNet someCategorical 10 ω) :=
  end_sample_returns pair_describes pair_ok someCategorical pair_conservative pair_irreducible (by norm_num)

/-- C202: as C191 and C192. -/
example {ε : ℝ} (hε : 0 < ε) : Tendsto (fun T => drawLaw 2 (Measure.infinitePi choiceLaw) {ω |
      ε ≤ |((rawTransitions ["X", "Y"] [endRows pairNet someCategorical T ω] "Y" [] 0 1 [] : ℝ) + 1)
        / ((rawResidence ["X", "Y"] [endRows pairNet someCategorical T ω] "Y" [] 0 [] : ℝ) + 1) - 13 / 9|}) atTop (𝓝 0) := by
  have h := end_estimate_limit pair_describes pair_ok someCategorical pair_conservative pair_irreducible pair_stationary (v := "Y") (by decide) (L := []) (by simp)
    (x := 0) (y := 1) (by decide) (by decide) [] (by rw [pair_share]; norm_num) hε
  rw [pair_share, pair_flux, show (13 : ℝ) / 22 / (9 / 22) = 13 / 9 by norm_num] at h
  exact h

example {ε : ℝ} (hε : 0 < ε) : Tendsto (fun T => drawLaw 2 (Measure.infinitePi choiceLaw) {ω |
      ε ≤ |((rawTransitions ["X", "Y"] [endRows pairNet someCategorical T ω] "Y" ["X"] 0 1 [1] : ℝ) + 1)
        / ((rawResidence ["X", "Y"] [endRows pairNet someCategorical T ω] "Y" ["X"] 0 [1] : ℝ) + 1) - 2|}) atTop (𝓝 0) := by
  have h := end_estimate_parents pair_describes pair_ok someCategorical pair_conservative pair_irreducible (v := "Y") (by decide) (L := ["X"]) (by decide)
    (by decide) (x := 0) (y := 1) (by decide) (by decide) (vals := [1, 0]) ⟨rfl, by decide⟩ (by decide) hε
  have e : pairCtbn.inverseAt "Y" (pairCtbn.parentStates [1, 0] "Y") 0 1 = 2 := by
    unfold Ctbn.inverseAt
    have e1 : pairCtbn.intensityAt "Y" (pairCtbn.parentStates [1, 0] "Y") 0 1 = 1 / 2 := by decide +kernel
    have e2 : pairCtbn.exitAt "Y" (pairCtbn.parentStates [1, 0] "Y") 0 = 1 / 2 := by decide +kernel
    rw [e1, e2]; norm_num
  rw [e] at h
  exact h

/-- C203: with the default arguments the network `X → Y` is recovered. -/
example : Tendsto (fun T => drawLaw 2 (Measure.infinitePi choiceLaw)
      {ω | ¬ Recovers pairCtbn [] 1 1 [[true, true], [true, true]] defaultArgs [endRows pairNet someCategorical T ω]}) atTop (𝓝 0) :=
  end_telling_recovered pair_describes pair_ok someCategorical (by unfold NoSuffixClash; decide) (by decide) pair_conservative pair_allPositive (le_refl 2) (fun _ _ => rfl) (by decide)
    pair_parents_tell [] one_pos one_pos (known := []) rfl (by simp) (by decide) rfl rfl (by simp [defaultArgs]) (by simp [defaultArgs]) (by simp [defaultArgs]) (by decide)

example : Tendsto (fun T => drawLaw 2 (Measure.infinitePi choiceLaw)
      {ω | ¬ Recovers pairCtbn [] 1 1 [[true, true], [true, true]] defaultArgs [endRows pairNet someCategorical T ω]}) atTop (𝓝 0) :=
  end_network_recovered pair_describes pair_ok someCategorical (by unfold NoSuffixClash; decide) (by decide) pair_conservative pair_allPositive (le_refl 2) (fun _ _ => rfl) (by decide)
    pair_stationary pair_matters
    [] one_pos one_pos (known := []) rfl (by simp) (by decide) rfl rfl (by simp [defaultArgs]) (by simp [defaultArgs]) (by simp [defaultArgs]) (by decide)

/-- C204: constraint-based estimation keeps the edge. -/
example : Tendsto (fun T => drawLaw 2 (Measure.infinitePi choiceLaw)
      {ω | ¬ KeepsEdges pairCtbn [] tightParams [] [endRows pairNet someCategorical T ω]}) atTop (𝓝 0) :=
  end_telling_kept pair_describes pair_ok someCategorical (by unfold NoSuffixClash; decide) (by decide) pair_conservative pair_allPositive (by norm_num) (fun _ _ => rfl)
    (by decide) pair_parents_tell [] (tight_tightens 2) []

example : Tendsto (fun T => drawLaw 2 (Measure.infinitePi choiceLaw)
      {ω | ¬ KeepsEdges pairCtbn [] tightParams [] [endRows pairNet someCategorical T ω]}) atTop (𝓝 0) :=
  end_edges_kept pair_describes pair_ok someCategorical (by unfold NoSuffixClash; decide) (by decide) pair_conservative pair_allPositive (by norm_num) (fun _ _ => rfl)
    (by decide) pair_stationary pair_matters [] (tight_tightens 2) []

/-- C205: hill climbing finds the network `X → Y`. -/
example : ∃ T₀, ∀ I, T₀ ≤ I → ∃ Q : Measure (ℕ → ℕ), IsProbabilityMeasure Q ∧
    Tendsto (fun T => drawLaw 2 (Measure.infinitePi choiceLaw) {ω | ¬ ProbablyRecovers pairCtbn [] 1 1 [[true, true], [true, true]] ⟨none, I, none, none, none, "hill"⟩
      Q (fun _ i ω => ω i) (fun _ _ _ => 0) (1 / 100) [endRows pairNet someCategorical T ω]}) atTop (𝓝 0) := by
  obtain ⟨T₀, h⟩ := end_hill_recovered pair_describes pair_ok someCategorical (ε := 1 / 100) (by norm_num) (by unfold NoSuffixClash; decide) (by decide)
    pair_conservative pair_allPositive (le_refl 2) (fun _ _ => rfl) (by decide) pair_stationary pair_matters [] one_pos one_pos (R := [[true, true], [true, true]]) (known := [])
    rfl (by simp) (by decide)
  refine ⟨T₀, fun T hT => ?_⟩
  obtain ⟨P, p1, p2⟩ := uniform_choices_exist 1 (by norm_num)
  refine ⟨P, p1, h ⟨none, T, none, none, none, "hill"⟩ ⟨by simp, by simp, by simp⟩ (show ("hill" : String) ≠ "tabu" by decide) rfl rfl hT P _ (fun n hn => ?_) _⟩
  rw [(show ∀ n ∈ pairCtbn.vars, (openParents (builtStruct pairCtbn.vars (pairCtbn.vars.map pairCtbn.card) []) [] n).card = 1 by decide) n hn]
  exact p2

end Demo

end

end PyCTBN
