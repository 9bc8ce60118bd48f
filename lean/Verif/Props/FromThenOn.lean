import Verif.Props.Rates

/-!
# Never wrong again: C226
-/

open MeasureTheory ProbabilityTheory Filter
open scoped ENNReal Topology

namespace PyCTBN
open Spec JumpPaths Indep

noncomputable section

/-- What fails with exponentially small probability at every length fails at some length from `n` on with exponentially small probability. -/
theorem RareRate.from_then_on {Ω : Type} [MeasurableSpace Ω] {μ : Measure Ω} {S : ℕ → Ω → Prop} (h : RareRate μ (fun n => (n : ℝ)) S) :
    RareRate μ (fun n => (n : ℝ)) (fun n ω => ∀ m ≥ n, S m ω) := by
  obtain ⟨γ, C, hγ, hC, h⟩ := h
  have hlt : Real.exp (-γ) < 1 := by
    rw [← Real.exp_zero]
    exact Real.exp_lt_exp.2 (by linarith)
  refine ⟨γ, C * (1 - Real.exp (-γ))⁻¹, hγ, mul_nonneg hC (inv_nonneg.2 (by linarith)), fun n hn => ?_⟩
  have e : {ω | ¬ ∀ m ≥ n, S m ω} ⊆ ⋃ j : ℕ, {ω | ¬ S (n + j) ω} := by
    intro ω hω
    simp only [Set.mem_ofPred_eq] at hω
    push Not at hω
    obtain ⟨m, hm, hs⟩ := hω
    exact Set.mem_iUnion.2 ⟨m - n, by simpa only [Set.mem_ofPred_eq, Nat.add_sub_cancel' hm] using hs⟩
  have hsum : HasSum (fun j : ℕ => C * Real.exp (-(γ * n)) * Real.exp (-γ) ^ j) (C * Real.exp (-(γ * n)) * (1 - Real.exp (-γ))⁻¹) :=
    (hasSum_geometric_of_lt_one (Real.exp_pos _).le hlt).mul_left _
  refine (measure_mono e).trans ((measure_iUnion_le _).trans ((ENNReal.tsum_le_tsum (fun j => h (n + j) (by omega))).trans (le_of_eq ?_)))
  rw [show C * (1 - Real.exp (-γ))⁻¹ * Real.exp (-(γ * n)) = C * Real.exp (-(γ * n)) * (1 - Real.exp (-γ))⁻¹ by ring, ← hsum.tsum_eq,
    ENNReal.ofReal_tsum_of_nonneg (fun j => by positivity) hsum.summable]
  refine tsum_congr (fun j => ?_)
  congr 1
  rw [mul_assoc, ← Real.exp_nat_mul, ← Real.exp_add]
  congr 2
  push_cast
  ring

/-- Two exponential rates have a common one. -/
theorem both_rates {Ω : Type} [MeasurableSpace Ω] {μ : Measure Ω} {S : ℕ → Ω → Prop} {S' : ℝ → Ω → Prop} (h : RareRate μ (fun n => (n : ℝ)) (fun n ω => ∀ m ≥ n, S m ω))
    (h' : ∃ γ C₀ : ℝ, 0 < γ ∧ ∀ T : ℝ, 0 ≤ T → μ {ω | ∃ T' ≥ T, ¬ S' T' ω} ≤ ENNReal.ofReal (C₀ * Real.exp (-(γ * T)))) :
    ∃ γ C₀ : ℝ, 0 < γ ∧ (∀ n : ℕ, 1 ≤ n → μ {ω | ∃ m ≥ n, ¬ S m ω} ≤ ENNReal.ofReal (C₀ * Real.exp (-(γ * n)))) ∧
      ∀ T : ℝ, 0 ≤ T → μ {ω | ∃ T' ≥ T, ¬ S' T' ω} ≤ ENNReal.ofReal (C₀ * Real.exp (-(γ * T))) := by
  obtain ⟨γ, C, hγ, hC, h⟩ := h
  obtain ⟨γ', C', hγ', h'⟩ := h'
  have hCm : 0 ≤ max C C' := hC.trans (le_max_left _ _)
  refine ⟨min γ γ', max C C', lt_min hγ hγ', fun n hn => ?_, fun T hT => (h' T hT).trans (ENNReal.ofReal_le_ofReal ?_)⟩
  · refine (measure_mono (fun ω hω => ?_)).trans ((h n hn).trans (ENNReal.ofReal_le_ofReal ?_))
    · simp only [Set.mem_ofPred_eq] at hω ⊢
      push Not
      exact hω
    · exact mul_le_mul (le_max_left _ _) (Real.exp_le_exp.2 (neg_le_neg (mul_le_mul_of_nonneg_right (min_le_left _ _) (Nat.cast_nonneg n)))) (Real.exp_pos _).le hCm
  · exact mul_le_mul (le_max_right _ _) (Real.exp_le_exp.2 (neg_le_neg (mul_le_mul_of_nonneg_right (min_le_right _ _) hT))) (Real.exp_pos _).le hCm

/-- The largest deviation from `n` on, cut at 1. -/
def tailSup (d : ℕ → ℝ) (n : ℕ) : ℝ := ⨆ j : ℕ, min 1 |d (n + j)|

theorem tailSup_bdd (d : ℕ → ℝ) (n : ℕ) : BddAbove (Set.range (fun j : ℕ => min 1 |d (n + j)|)) := ⟨1, by rintro _ ⟨j, rfl⟩; exact min_le_left _ _⟩

theorem tailSup_ge (d : ℕ → ℝ) {n m : ℕ} (hm : n ≤ m) : min 1 |d m| ≤ tailSup d n := by
  have := le_ciSup (tailSup_bdd d n) (m - n)
  unfold tailSup
  rwa [Nat.add_sub_cancel' hm] at this

theorem tailSup_nonneg (d : ℕ → ℝ) (n : ℕ) : 0 ≤ tailSup d n := (le_min zero_le_one (abs_nonneg _)).trans (tailSup_ge d (le_refl n))

theorem tailSup_le {d : ℕ → ℝ} {n : ℕ} {ε : ℝ} (h : ∀ m ≥ n, |d m| < ε) : tailSup d n ≤ ε :=
  ciSup_le (fun j => (min_le_right _ _).trans (h (n + j) (by omega)).le)

/-- If the largest deviations from `n k` on vanish, so do the deviations at any later lengths. -/
theorem tendsto_of_tailSup {d : ℕ → ℕ → ℝ} {n m : ℕ → ℕ} (h : Tendsto (fun k => tailSup (d k) (n k)) atTop (𝓝 0)) (hm : ∀ k, n k ≤ m k) :
    Tendsto (fun k => d k (m k)) atTop (𝓝 0) := by
  refine squeeze_zero_norm' ?_ h
  filter_upwards [h.eventually (gt_mem_nhds one_pos)] with k hk
  rw [Real.norm_eq_abs]
  have h1 := tailSup_ge (d k) (hm k)
  rcases le_total 1 |d k (m k)| with h2 | h2
  · rw [min_eq_left h2] at h1; linarith
  · rwa [min_eq_right h2] at h1

section
variable {net : SampleNet} {N : Ctbn} (hD : Describes net N) (hOK : N.OK)
include hD hOK
variable {U : Type} [MeasurableSpace U] {P : Measure U} [IsProbabilityMeasure P] (C : Categorical U P)

/-- The rows for an end time are the rows for the number of moves made before it. -/
theorem end_between (hc : N.Conservative) (hirr : N.Irreducible) :
    ∀ᵐ ω ∂drawLaw N.vars.length P, (∀ m, 1 ≤ m → UsableRows N (sampledRows net C m ω)) ∧ Monotone (fun n => clockAfter 0 (sampledMoves net C n ω)) ∧
      ∀ T > 0, ∃ n, endRows net C T ω = sampledRows net C n ω ∧ clockAfter 0 (sampledMoves net C n ω) < T ∧ T ≤ clockAfter 0 (sampledMoves net C (n + 1) ω) := by
  have hpos := leaves_of_conservative hD hOK hc
  have husable : ∀ᵐ ω ∂drawLaw N.vars.length P, ∀ m : ℕ, 1 ≤ m → UsableRows N (sampledRows net C m ω) := by
    simp only [ae_all_iff]
    intro m hm
    exact sampled_rows_usable hD hOK C hpos hm
  filter_upwards [husable, ae_all_iff.2 (fun k : ℕ => clock_passes hD hOK C hc hirr (k : ℝ)), ae_all_iff.2 (fun n => sampled_moves_genuine hD hOK C hpos n)] with ω hu hpass hgen
  let clk : ℕ → ℝ := fun n => clockAfter 0 (sampledMoves net C n ω)
  have hclk0 : clk 0 = 0 := by
    have : sampledMoves net C 0 ω = [] := rfl
    simp [clk, this, clockAfter]
  have hmono : Monotone clk := by
    refine monotone_nat_of_le_succ (fun n => ?_)
    obtain ⟨ms, h1, h2, h3⟩ := hgen (n + 1)
    have e1 : sampledMoves net C (n + 1) ω = ms := by unfold sampledMoves movesOf; rw [h1]
    have e2 : sampledMoves net C n ω = ms.take n := by unfold sampledMoves movesOf; rw [movesR_take h1 (by omega)]
    simp only [clk, e1, e2]
    conv_rhs => rw [← List.take_append_drop n ms]
    rw [clockAfter_append]
    exact clockAfter_le (fun m hm => by obtain ⟨-, -, -, h⟩ := h3 m (List.mem_of_mem_drop hm); exact h.le)
  have hex : ∀ T : ℝ, ∃ n, T ≤ clk (n + 1) := by
    intro T
    obtain ⟨k, hk⟩ := exists_nat_ge T
    obtain ⟨n, hn⟩ := hpass k
    exact ⟨n, hk.trans (hn.trans (hmono (Nat.le_succ n)))⟩
  refine ⟨hu, hmono, fun T hT => ?_⟩
  classical
  set c := Nat.find (hex T) with hcdef
  have hc1 : T ≤ clk (c + 1) := Nat.find_spec (hex T)
  have hc2 : clk c < T := by
    rcases Nat.eq_zero_or_pos c with h | h
    · rw [h, hclk0]; exact hT
    · have := Nat.find_min (hex T) (m := c - 1) (Nat.sub_lt h one_pos)
      rw [not_le, show c - 1 + 1 = c by omega] at this
      exact this
  refine ⟨c, ?_, hc2, hc1⟩
  obtain ⟨ms, h1, h2, h3⟩ := hgen (c + 1)
  have e1 : sampledMoves net C (c + 1) ω = ms := by unfold sampledMoves movesOf; rw [h1]
  have e2 : net.movesR c (drawsAt C ω) net.initClock = .ok (ms.take c) := movesR_take h1 (by omega)
  have e2' : sampledMoves net C c ω = ms.take c := by unfold sampledMoves movesOf; rw [e2]
  have hstop := movesBefore_stops ms hT (by rw [← e1]; exact hc1)
  have hrun := runR_of_moves (T := T) (by linarith) 0 h1 hstop (c + 1) le_rfl
  have hpre : ms.take c <+: movesBefore T 0 ms := by
    conv_rhs => rw [← List.take_append_drop c ms]
    exact prefix_movesBefore _ _ (fun m hm => by obtain ⟨-, -, -, h⟩ := h3 m (List.mem_of_mem_take hm); exact h.le) (by rw [← e2']; exact hc2)
  have heq : movesBefore T 0 ms = ms.take c := by
    refine (hpre.eq_of_length_le ?_).symm
    rw [List.length_take, h2, min_eq_left (by omega)]
    omega
  have ht : net.initClock.t = 0 := rfl
  rw [endRows_eq C ((sampleStopR_ok C).2 ⟨_, hrun, rfl⟩), ht, heq]
  unfold sampledRows SampleNet.sampleR
  rw [e2]
  rfl

/-- The mean time a move takes rarely deviates from its stationary value. -/
theorem clock_expRare (hc : N.Conservative) (hirr : N.Irreducible) {π : List Nat → ℝ} (hπ : Stationary N N.inverseRates π) :
    ExpRare (drawLaw N.vars.length P) (fun n ω => clockAfter 0 (sampledMoves net C n ω) / n) (1 / pace N N.inverseRates π) := by
  have hU := usable_inverse hD hOK (leaves_of_conservative hD hOK hc)
  have hp := pace_pos hOK hU hπ
  have hdraw : IsProbabilityMeasure (drawLaw N.vars.length P) := by unfold drawLaw; infer_instance
  obtain ⟨B, K, θ₀, hB, hK, hθ₀, h⟩ := sampled_total_tail hD hOK C hc hirr hπ (fun _ _ => 0) (fun _ => 1) (c := 1 / pace N N.inverseRates π) (by
    rw [div_mul_cancel₀ _ hp.ne']
    simpa using hπ.one)
  refine expRare_of_tail hB hK hθ₀ (fun n ω => ?_) h
  rw [listTotal_clock, round4R_zero, Rat.cast_zero, sub_zero, abs_sub_comm]
  exact (round4R_near _).trans (by norm_num)

omit hD hOK in
/-- Several rows whose mean times and counts settle, put together. -/
theorem close_pool {π : List Nat → ℝ} {k : ℝ} (hk : 0 < k) {K : Nat} (hK : 0 < K) {size : ℕ → ℝ} (hsize : Tendsto size atTop atTop) {rows : ℕ → ℕ → RawTraj}
    (hu : ∀ᶠ j in atTop, ∀ i < K, UsableRows N (rows i j))
    (hres : ∀ i < K, ∀ v ∈ N.vars, ∀ L : List Label, (∀ p ∈ L, p ∈ N.vars) → ∀ (x : Nat) (u : List Nat),
      Tendsto (fun j => (rawResidence N.vars [rows i j] v L x u : ℝ) / size j) atTop (𝓝 (share N π v L x u / k)))
    (htr : ∀ i < K, ∀ v ∈ N.vars, ∀ L : List Label, (∀ p ∈ L, p ∈ N.vars) → ∀ (x : Nat) (u : List Nat), ∀ y < N.card v, y ≠ x →
      Tendsto (fun j => (rawTransitions N.vars [rows i j] v L x y u : ℝ) / size j) atTop (𝓝 (flux N N.inverseRates π v L x y u / k))) :
    CloseRows N π (Measure.dirac ()) atTop size (k / K) (fun j _ => (List.range K).flatMap (fun i => [rows i j])) := by
  have hK' : (0 : ℝ) < K := by exact_mod_cast hK
  have near : ∀ {ε : ℝ}, 0 < ε → ∀ {f : ℕ → ℕ → ℝ} {s : ℝ}, (∀ i < K, Tendsto (fun j => f i j / size j) atTop (𝓝 (s / k))) →
      Likely (Measure.dirac ()) atTop (fun j (_ : Unit) => |(∑ i ∈ Finset.range K, f i j) / size j - s / (k / K)| < ε) := by
    intro ε hε f s hf
    refine likely_sure.2 ?_
    have h1 := tendsto_finsetSum (Finset.range K) (fun i hi => hf i (Finset.mem_range.1 hi))
    rw [Finset.sum_const, Finset.card_range, nsmul_eq_mul, show (K : ℝ) * (s / k) = s / (k / K) by field_simp] at h1
    simp only [← Finset.sum_div] at h1
    have := Metric.tendsto_nhds.1 h1 ε hε
    simpa only [Real.dist_eq] using this
  refine ⟨hsize, div_pos hk hK', fun {ε} hε {v} hv {L} hL x u => ⟨?_, fun y hy hyx => ?_⟩, likely_sure.2 ?_⟩
  · simp only [rawResidence_flatMap]
    exact near hε (fun i hi => hres i hi v hv L hL x u)
  · simp only [rawTransitions_flatMap]
    exact near hε (fun i hi => htr i hi v hv L hL x u y hy hyx)
  · filter_upwards [hu] with j hj
    refine ⟨fun hnil => ?_, fun r hr => ?_⟩
    · exact absurd (List.flatMap_eq_nil_iff.1 hnil 0 (List.mem_range.2 hK)) (List.cons_ne_nil _ _)
    · obtain ⟨i, hi, hr⟩ := List.mem_flatMap.1 hr
      rw [List.mem_singleton.1 hr]
      exact hj i (List.mem_range.1 hi)

omit hD hOK in
/-- Statistics per move and times per move settle: so do statistics per time. -/
theorem per_time {f m T : ℕ → ℝ} {s p : ℝ} (hp : 0 < p) (hf : Tendsto (fun k => f k / m k) atTop (𝓝 (s / p))) (hm : Tendsto (fun k => m k / T k) atTop (𝓝 p))
    (hm0 : ∀ᶠ k in atTop, 0 < m k) : Tendsto (fun k => f k / T k) atTop (𝓝 (s / 1)) := by
  have := hf.mul hm
  rw [div_mul_cancel₀ _ hp.ne'] at this
  rw [div_one]
  refine this.congr' ?_
  filter_upwards [hm0] with k hk
  field_simp

/-- What succeeds somewhere along every sequence of `K` trajectories whose mean times and counts settle fails, for some end time from `T` on, with exponentially small probability. -/
theorem close_end_rate (hc : N.Conservative) (hirr : N.Irreducible) {π : List Nat → ℝ} (hπ : Stationary N N.inverseRates π) {K : Nat} (hK : 0 < K) {S : List RawTraj → Prop}
    (hS : ∀ (T : ℕ → ℝ) (rows : ℕ → List RawTraj), CloseRows N π (Measure.dirac ()) atTop T (1 / K) (fun j _ => rows j) → ∃ j, S (rows j)) :
    ∃ γ C₀ : ℝ, 0 < γ ∧ ∀ T : ℝ, 0 ≤ T → manyLaw N.vars.length P {ω | ∃ T' ≥ T, ¬ S (pooledEnd net C T' K ω)} ≤ ENNReal.ofReal (C₀ * Real.exp (-(γ * T))) := by
  have hp := pace_pos hOK (usable_inverse hD hOK (leaves_of_conservative hD hOK hc)) hπ
  set p := pace N N.inverseRates π with hpdef
  have hdraw : IsProbabilityMeasure (drawLaw N.vars.length P) := by unfold drawLaw; infer_instance
  have hmany : IsProbabilityMeasure (manyLaw N.vars.length P) := by unfold manyLaw; infer_instance
  have hne : Nonempty (Fin K) := ⟨⟨0, hK⟩⟩
  let Good : (ℕ → (Fin N.vars.length → ℝ) × U) → Prop := fun ω => (∀ m, 1 ≤ m → UsableRows N (sampledRows net C m ω)) ∧ Monotone (fun n => clockAfter 0 (sampledMoves net C n ω)) ∧
      ∀ T > 0, ∃ n, endRows net C T ω = sampledRows net C n ω ∧ clockAfter 0 (sampledMoves net C n ω) < T ∧ T ≤ clockAfter 0 (sampledMoves net C (n + 1) ω)
  let dev : Fin K × Option (Bool × Label × List Label × ℕ × ℕ × List ℕ) → (ℕ → ℕ → (Fin N.vars.length → ℝ) × U) → ℕ → ℝ := fun q ω n => match q with
      | (i, some q) => deviation N π p q n [sampledRows net C n (ω i)]
      | (i, none) => clockAfter 0 (sampledMoves net C n (ω i)) / n - 1 / p
  have key : RareRate (manyLaw N.vars.length P) (fun n => (n : ℝ)) (fun n ω => ∀ T : ℝ, n ≤ p / 2 * T → S (pooledEnd net C T K ω)) := by
    refine rare_of_sequences (Q := Fin K × Option (Bool × Label × List Label × ℕ × ℕ × List ℕ)) (dev := fun q n ω => tailSup (dev q ω) n)
      (ok := fun _ ω => ∀ i : ℕ, Good (ω i)) (fun n => Nat.cast_nonneg n) (fun n hn => ?_) (fun n ω hn hdev hok => ?_) (fun q ε hε => ?_)
    · refine ae_all_iff.2 (fun i => ?_)
      have hev : MeasurePreserving (fun ω : ℕ → ℕ → (Fin N.vars.length → ℝ) × U => ω i) (Measure.infinitePi (fun _ : ℕ => drawLaw N.vars.length P)) (drawLaw N.vars.length P) :=
        measurePreserving_eval_infinitePi _ i
      exact hev.quasiMeasurePreserving.ae (end_between hD hOK C hc hirr)
    · by_contra hcon
      push Not at hcon
      choose T hT hbad using hcon
      have hngrow := grows_of_ge hn
      have hTn : ∀ k, 2 / p * n k ≤ T k := fun k => by
        have := hT k
        rw [div_mul_eq_mul_div, div_le_iff₀ hp]; linarith
      have hTgrow : Tendsto T atTop atTop := tendsto_atTop_mono hTn (hngrow.const_mul_atTop (by positivity))
      have hall : ∀ i < K, (∀ᶠ k in atTop, UsableRows N (endRows net C (T k) (ω k i))) ∧
          (∀ v ∈ N.vars, ∀ L : List Label, (∀ p ∈ L, p ∈ N.vars) → ∀ (x : Nat) (u : List Nat),
            Tendsto (fun j => (rawResidence N.vars [endRows net C (T j) (ω j i)] v L x u : ℝ) / T j) atTop (𝓝 (share N π v L x u / 1))) ∧
          (∀ v ∈ N.vars, ∀ L : List Label, (∀ p ∈ L, p ∈ N.vars) → ∀ (x : Nat) (u : List Nat), ∀ y < N.card v, y ≠ x →
            Tendsto (fun j => (rawTransitions N.vars [endRows net C (T j) (ω j i)] v L x y u : ℝ) / T j) atTop (𝓝 (flux N N.inverseRates π v L x y u / 1))) := by
        intro i hi
        let clk : ℕ → ℕ → ℝ := fun k m => clockAfter 0 (sampledMoves net C m (ω k i))
        have hcount : ∀ k, ∃ m, 0 < T k → endRows net C (T k) (ω k i) = sampledRows net C m (ω k i) ∧ clk k m < T k ∧ T k ≤ clk k (m + 1) := by
          intro k
          rcases lt_or_ge 0 (T k) with h | h
          · obtain ⟨m, hm⟩ := (hok k i).2.2 (T k) h
            exact ⟨m, fun _ => hm⟩
          · exact ⟨0, fun h' => absurd h' (not_lt.2 h)⟩
        choose count hcount using hcount
        have hclock : ∀ m : ℕ → ℕ, (∀ k, n k ≤ m k) → Tendsto (fun k => clk k (m k) / m k) atTop (𝓝 (1 / p)) := fun m hm =>
          tendsto_sub_nhds_zero_iff.1 (tendsto_of_tailSup (hdev (⟨i, hi⟩, none)) hm)
        have hge : ∀ᶠ k in atTop, n k ≤ count k := by
          filter_upwards [(hclock n (fun _ => le_rfl)).eventually (gt_mem_nhds (show 1 / p < 2 / p by gcongr; norm_num)), hTgrow.eventually_gt_atTop 0, hngrow.eventually_gt_atTop 0] with k h1 h2 h3
          by_contra hlt
          rw [div_lt_iff₀ h3] at h1
          have h4 : clk k (count k + 1) ≤ clk k (n k) := (hok k i).2.1 (by omega)
          have h5 := (hcount k h2).2.2
          linarith [hTn k]
        let m : ℕ → ℕ := fun k => max (count k) (n k)
        have hm : ∀ k, n k ≤ m k := fun k => le_max_right _ _
        have hmeq : ∀ᶠ k in atTop, m k = count k := by filter_upwards [hge] with k hk; exact max_eq_left hk
        have hmgrow : Tendsto (fun k => (m k : ℝ)) atTop atTop := tendsto_atTop_mono (fun k => by exact_mod_cast hm k) hngrow
        have hrow : ∀ᶠ k in atTop, sampledRows net C (m k) (ω k i) = endRows net C (T k) (ω k i) := by
          filter_upwards [hmeq, hTgrow.eventually_gt_atTop 0] with k h1 h2
          rw [h1, (hcount k h2).1]
        have hlow := hclock m hm
        have hup : Tendsto (fun k => clk k (m k + 1) / m k) atTop (𝓝 (1 / p)) := by
          have h1 := (hclock (fun k => m k + 1) (fun k => (hm k).trans (Nat.le_succ _))).mul
            (tendsto_const_nhds.add (tendsto_const_nhds.div_atTop hmgrow) : Tendsto (fun k => (1 : ℝ) + 1 / (m k : ℝ)) atTop (𝓝 (1 + 0)))
          rw [add_zero, mul_one] at h1
          refine h1.congr' ?_
          filter_upwards [hmgrow.eventually_gt_atTop 0] with k hk
          push_cast
          field_simp
        have hinv : Tendsto (fun k => T k / (m k : ℝ)) atTop (𝓝 (1 / p)) := by
          refine tendsto_of_tendsto_of_tendsto_of_le_of_le' hlow hup ?_ ?_
          · filter_upwards [hmeq, hTgrow.eventually_gt_atTop 0] with k h1 h2
            rw [h1]
            exact div_le_div_of_nonneg_right (hcount k h2).2.1.le (by positivity)
          · filter_upwards [hmeq, hTgrow.eventually_gt_atTop 0] with k h1 h2
            rw [h1]
            exact div_le_div_of_nonneg_right (hcount k h2).2.2 (by positivity)
        have hpace : Tendsto (fun k => (m k : ℝ) / T k) atTop (𝓝 p) := by
          have := hinv.inv₀ (by positivity)
          simpa only [inv_div, div_one] using this
        obtain ⟨c1, c2⟩ := close_of_deviations (N := N) (π := π) (n := m) (rows := fun k => [sampledRows net C (m k) (ω k i)]) (k := p)
          (fun q => tendsto_of_tailSup (hdev (⟨i, hi⟩, some q)) hm)
        refine ⟨?_, fun v hv L hL x u => ?_, fun v hv L hL x u y hy hyx => ?_⟩
        · filter_upwards [hrow, hmgrow.eventually_gt_atTop 0] with k h1 h2
          rw [← h1]
          exact (hok k i).1 (m k) (by exact_mod_cast h2)
        · refine (per_time hp (c1 v hv L hL x u) hpace (hmgrow.eventually_gt_atTop 0)).congr' ?_
          filter_upwards [hrow] with k hk; rw [hk]
        · refine (per_time hp (c2 v hv L hL x u y hy hyx) hpace (hmgrow.eventually_gt_atTop 0)).congr' ?_
          filter_upwards [hrow] with k hk; rw [hk]
      have hclose := close_pool (N := N) (π := π) one_pos hK hTgrow (rows := fun i k => endRows net C (T k) (ω k i))
        ((Filter.eventually_all_finset (Finset.range K)).2 (fun i hi => (hall i (Finset.mem_range.1 hi)).1) |>.mono (fun k hk i hi => hk i (Finset.mem_range.2 hi)))
        (fun i hi => (hall i hi).2.1) (fun i hi => (hall i hi).2.2)
      obtain ⟨k, hk⟩ := hS T _ hclose
      refine hbad k ?_
      unfold pooledEnd
      rw [List.map_eq_flatMap]
      exact hk
    · have h1 : RareRate (manyLaw N.vars.length P) (fun n => (n : ℝ)) (fun n ω => |dev q ω n| < ε / 2) := by
        obtain ⟨i, _ | q⟩ := q
        · exact ((clock_expRare hD hOK C hc hirr hπ).rate (half_pos hε)).coordinate i
        · exact (deviation_rare hD hOK C hc hirr hπ q (half_pos hε)).coordinate i
      refine h1.from_then_on.mono (fun n ω _ h => ?_)
      rw [abs_of_nonneg (tailSup_nonneg _ _)]
      exact (tailSup_le h).trans_lt (half_lt_self hε)
  obtain ⟨γ, C₀, hγ, hC₀, h⟩ := key
  refine ⟨γ * (p / 2), max C₀ 1 * Real.exp γ, by positivity, fun T hT => ?_⟩
  have hfl : p / 2 * T < ⌊p / 2 * T⌋₊ + 1 := Nat.lt_floor_add_one _
  have hexp : Real.exp (-(γ * ⌊p / 2 * T⌋₊)) ≤ Real.exp γ * Real.exp (-(γ * (p / 2) * T)) := by
    rw [← Real.exp_add]
    refine Real.exp_le_exp.2 ?_
    have := mul_le_mul_of_nonneg_left hfl.le hγ.le
    linarith
  rcases Nat.eq_zero_or_pos ⌊p / 2 * T⌋₊ with h0 | h0
  · refine prob_le_one.trans ?_
    rw [← ENNReal.ofReal_one]
    refine ENNReal.ofReal_le_ofReal ?_
    rw [h0, Nat.cast_zero, mul_zero, neg_zero, Real.exp_zero] at hexp
    have := mul_le_mul (le_max_right C₀ 1) hexp zero_le_one (by positivity)
    linarith
  · refine (measure_mono (fun ω hω => ?_)).trans ((h _ h0).trans (ENNReal.ofReal_le_ofReal ?_))
    · simp only [Set.mem_ofPred_eq] at hω ⊢
      intro hall
      obtain ⟨T', hT', hbad⟩ := hω
      exact hbad (hall T' ((Nat.floor_le (by positivity)).trans (mul_le_mul_of_nonneg_left hT' (by positivity))))
    · rw [mul_assoc]
      exact mul_le_mul (le_max_left _ _) hexp (Real.exp_pos _).le (by positivity)

omit hD hOK in
/-- Statistics that settle make the estimates settle. -/
theorem close_estimate {π : List Nat → ℝ} {k : ℝ} {size : ℕ → ℝ} {rows : ℕ → List RawTraj} (h : CloseRows N π (Measure.dirac ()) atTop size k (fun j _ => rows j))
    {v : Label} (hv : v ∈ N.vars) {L : List Label} (hL : ∀ p ∈ L, p ∈ N.vars) {x y : Nat} (hxy : y ≠ x) (hy : y < N.card v) (u : List Nat) (hshare : 0 < share N π v L x u) :
    Tendsto (fun j => ((rawTransitions N.vars (rows j) v L x y u : ℝ) + 1) / ((rawResidence N.vars (rows j) v L x u : ℝ) + 1)) atTop
      (𝓝 (flux N N.inverseRates π v L x y u / share N π v L x u)) := by
  have hk := h.pos
  have h1 : Tendsto (fun j => (rawResidence N.vars (rows j) v L x u : ℝ) / size j) atTop (𝓝 (share N π v L x u / k)) := by
    refine Metric.tendsto_nhds.2 (fun ε hε => ?_)
    simpa only [Real.dist_eq] using likely_sure.1 (h.close hε hv hL x u).1
  have h2 : Tendsto (fun j => (rawTransitions N.vars (rows j) v L x y u : ℝ) / size j) atTop (𝓝 (flux N N.inverseRates π v L x y u / k)) := by
    refine Metric.tendsto_nhds.2 (fun ε hε => ?_)
    simpa only [Real.dist_eq] using likely_sure.1 ((h.close hε hv hL x u).2 y hy hxy)
  have h3 : Tendsto (fun j => 1 / size j) atTop (𝓝 0) := tendsto_const_nhds.div_atTop h.grows
  have h4 := (h2.add h3).div (h1.add h3) (by rw [add_zero]; exact (div_pos hshare hk).ne')
  rw [add_zero, add_zero, div_div_div_cancel_right₀ hk.ne'] at h4
  refine h4.congr' ?_
  filter_upwards [h.grows.eventually_gt_atTop 0] with j hj
  rw [Pi.div_apply, ← add_div, ← add_div, div_div_div_cancel_right₀ hj.ne']

/-- **C226** (no edge missing, ever again).  At fixed levels, the probability that constraint-based estimation from `K` trajectories misses an edge of the network for some `max_tr` from `n`
on is exponentially small in `n`; and that it does for some `t_end` from `T` on is exponentially small in `T`. -/
theorem edges_kept_from_then_on (hcl : NoSuffixClash N.vars) (hT : "Time" ∉ N.vars) (hc : N.Conservative) (hpos : N.AllPositive) {c : Nat} (hc0 : 0 < c)
    (hcard : ∀ v ∈ N.vars, N.card v = c) (hns : ∀ v ∈ N.vars, v ∉ N.parents v) (htell : ∀ n ∈ N.vars, ∀ p ∈ N.parents n, Tells N p n)
    (es : List Edge) {Q : IndepParams} (hQ : QuantilesTighten Q c) (known : List Edge) {K : Nat} (hK : 0 < K) :
    ∃ γ C₀ : ℝ, 0 < γ ∧
      (∀ n : ℕ, 1 ≤ n → manyLaw N.vars.length P {ω | ∃ m ≥ n, ¬ KeepsEdges N es Q known (pooledRows net C m K ω)} ≤ ENNReal.ofReal (C₀ * Real.exp (-(γ * n)))) ∧
      ∀ T : ℝ, 0 ≤ T → manyLaw N.vars.length P {ω | ∃ T' ≥ T, ¬ KeepsEdges N es Q known (pooledEnd net C T' K ω)} ≤ ENNReal.ofReal (C₀ * Real.exp (-(γ * T))) := by
  have hirr := irreducible_of_allPositive hOK hpos
  obtain ⟨π, hπ, -⟩ := sample_stationary hD hOK hc hirr
  have hmat : ∀ n ∈ N.vars, ∀ p ∈ N.parents n, ∀ K : List Label, (∀ q ∈ K, q ∈ N.vars) → p ∉ K → n ∉ K → StationaryMatters N N.inverseRates π n K p :=
    (fun n hn p hp K hK hpK hnK => tells_matters hD hOK hc hirr hπ hn hp (by rintro rfl; exact hns _ hn hp) (htell n hn p hp) hK hpK hnK)
  exact both_rates (close_rate hD hOK C hc hirr hπ hK (S := fun _ rows => KeepsEdges N es Q known rows) (fun n rows h =>
    (likely_sure.1 (typical_edges_kept hD hOK h hcl hT hc hpos hc0 hcard hns hπ hmat es hQ known)).exists)).from_then_on
    (close_end_rate hD hOK C hc hirr hπ hK (S := fun rows => KeepsEdges N es Q known rows) (fun T rows h =>
    (likely_sure.1 (typical_edges_kept hD hOK h hcl hT hc hpos hc0 hcard hns hπ hmat es hQ known)).exists))

/-- **C226** (no wrong estimate, ever again).  The probability that the intensity estimated from `K` trajectories given all parents is wrong by `ε` for some `max_tr` from `n` on is
exponentially small in `n`; and that it is for some `t_end` from `T` on is exponentially small in `T`. -/
theorem estimates_from_then_on (hc : N.Conservative) (hirr : N.Irreducible) {v : Label} (hv : v ∈ N.vars) {L : List Label} (hL : ∀ p ∈ L, p ∈ N.vars)
    (hP : ∀ p ∈ N.parents v, p ∈ L) {vals : List Nat} (hr : N.InRange vals) {y : Nat} (hxy : y ≠ N.state vals v) (hy : y < N.card v) {K : Nat} (hK : 0 < K) {ε : ℝ} (hε : 0 < ε) :
    ∃ γ C₀ : ℝ, 0 < γ ∧
      (∀ n : ℕ, 1 ≤ n → manyLaw N.vars.length P {ω | ∃ m ≥ n, ε ≤
        |((rawTransitions N.vars (pooledRows net C m K ω) v L (N.state vals v) y (L.map (N.state vals)) : ℝ) + 1)
          / ((rawResidence N.vars (pooledRows net C m K ω) v L (N.state vals v) (L.map (N.state vals)) : ℝ) + 1) - N.inverseAt v (N.parentStates vals v) (N.state vals v) y|}
        ≤ ENNReal.ofReal (C₀ * Real.exp (-(γ * n)))) ∧
      ∀ T : ℝ, 0 ≤ T → manyLaw N.vars.length P {ω | ∃ T' ≥ T, ε ≤
        |((rawTransitions N.vars (pooledEnd net C T' K ω) v L (N.state vals v) y (L.map (N.state vals)) : ℝ) + 1)
          / ((rawResidence N.vars (pooledEnd net C T' K ω) v L (N.state vals v) (L.map (N.state vals)) : ℝ) + 1) - N.inverseAt v (N.parentStates vals v) (N.state vals v) y|}
        ≤ ENNReal.ofReal (C₀ * Real.exp (-(γ * T))) := by
  obtain ⟨π, hπ, hpos, -⟩ := sample_stationary hD hOK hc hirr
  have hcase : Circumstances N v L (N.state vals v) (L.map (N.state vals)) vals := ⟨rfl, rfl⟩
  have hshare : 0 < share N π v L (N.state vals v) (L.map (N.state vals)) := by
    unfold share
    refine Finset.sum_pos' (fun a ha => ?_) ⟨vals, (mem_joint hOK).2 hr, ?_⟩
    · split_ifs
      · exact hπ.nonneg a ha
      · exact le_rfl
    · rw [if_pos hcase]; exact hpos vals hr
  have hlim : flux N N.inverseRates π v L (N.state vals v) y (L.map (N.state vals)) / share N π v L (N.state vals v) (L.map (N.state vals))
      = N.inverseAt v (N.parentStates vals v) (N.state vals v) y := by
    rw [flux_of_parents hD hOK hc hv hP hxy, mul_div_cancel_right₀ _ hshare.ne', ← (parentStates_of hP hcase).2]
  let S : List RawTraj → Prop := fun rows => |((rawTransitions N.vars rows v L (N.state vals v) y (L.map (N.state vals)) : ℝ) + 1)
          / ((rawResidence N.vars rows v L (N.state vals v) (L.map (N.state vals)) : ℝ) + 1) - N.inverseAt v (N.parentStates vals v) (N.state vals v) y| < ε
  have hS : ∀ {k : ℝ} {size : ℕ → ℝ} {rows : ℕ → List RawTraj}, CloseRows N π (Measure.dirac ()) atTop size k (fun j _ => rows j) → ∃ j, S (rows j) := by
    intro k size rows h
    have h1 := close_estimate h hv hL hxy hy _ hshare
    rw [hlim] at h1
    have := Metric.tendsto_nhds.1 h1 ε hε
    simp only [Real.dist_eq] at this
    exact this.exists
  have := both_rates (close_rate hD hOK C hc hirr hπ hK (S := fun _ rows => S rows) (fun n rows h => hS h)).from_then_on
    (close_end_rate hD hOK C hc hirr hπ hK (S := S) (fun T rows h => hS h))
  simpa only [S, not_lt] using this

end

/-! ## Non-vacuity -/

namespace Demo

/-- C226: the edge `X → Y` and an intensity of `Y`, from three trajectories. -/
example : ∃ γ C₀ : ℝ, 0 < γ ∧
    (∀ n : ℕ, 1 ≤ n → manyLaw 2 (Measure.infinitePi choiceLaw) {ω | ∃ m ≥ n, ¬ KeepsEdges pairCtbn [] tightParams [] (pooledRows pairNet someCategorical m 3 ω)}
      ≤ ENNReal.ofReal (C₀ * Real.exp (-(γ * n)))) ∧
    ∀ T : ℝ, 0 ≤ T → manyLaw 2 (Measure.infinitePi choiceLaw) {ω | ∃ T' ≥ T, ¬ KeepsEdges pairCtbn [] tightParams [] (pooledEnd pairNet someCategorical T' 3 ω)}
      ≤ ENNReal.ofReal (C₀ * Real.exp (-(γ * T))) :=
  edges_kept_from_then_on pair_describes pair_ok someCategorical (by unfold NoSuffixClash; decide) (by decide) pair_conservative pair_allPositive (by norm_num) (fun _ _ => rfl)
    (by decide) pair_parents_tell [] (tight_tightens 2) [] (by norm_num)

example : ∃ γ C₀ : ℝ, 0 < γ ∧
    (∀ n : ℕ, 1 ≤ n → manyLaw 2 (Measure.infinitePi choiceLaw) {ω | ∃ m ≥ n, (1 / 10 : ℝ) ≤
      |((rawTransitions ["X", "Y"] (pooledRows pairNet someCategorical m 3 ω) "Y" ["X"] 0 1 [1] : ℝ) + 1)
        / ((rawResidence ["X", "Y"] (pooledRows pairNet someCategorical m 3 ω) "Y" ["X"] 0 [1] : ℝ) + 1) - 2|} ≤ ENNReal.ofReal (C₀ * Real.exp (-(γ * n)))) ∧
    ∀ T : ℝ, 0 ≤ T → manyLaw 2 (Measure.infinitePi choiceLaw) {ω | ∃ T' ≥ T, (1 / 10 : ℝ) ≤
      |((rawTransitions ["X", "Y"] (pooledEnd pairNet someCategorical T' 3 ω) "Y" ["X"] 0 1 [1] : ℝ) + 1)
        / ((rawResidence ["X", "Y"] (pooledEnd pairNet someCategorical T' 3 ω) "Y" ["X"] 0 [1] : ℝ) + 1) - 2|} ≤ ENNReal.ofReal (C₀ * Real.exp (-(γ * T))) := by
  have h := estimates_from_then_on pair_describes pair_ok someCategorical pair_conservative pair_irreducible (v := "Y") (by decide) (L := ["X"]) (by decide) (by decide)
    (vals := [1, 0]) ⟨rfl, by decide⟩ (y := 1) (by decide) (by decide) (K := 3) (by norm_num) (ε := 1 / 10) (by norm_num)
  have e : pairCtbn.inverseAt "Y" (pairCtbn.parentStates [1, 0] "Y") (pairCtbn.state [1, 0] "Y") 1 = 2 := by
    unfold Ctbn.inverseAt
    have e1 : pairCtbn.intensityAt "Y" (pairCtbn.parentStates [1, 0] "Y") (pairCtbn.state [1, 0] "Y") 1 = 1 / 2 := by decide +kernel
    have e2 : pairCtbn.exitAt "Y" (pairCtbn.parentStates [1, 0] "Y") (pairCtbn.state [1, 0] "Y") = 1 / 2 := by decide +kernel
    rw [e1, e2]; norm_num
  rw [e] at h
  exact h

end Demo

end

end PyCTBN
