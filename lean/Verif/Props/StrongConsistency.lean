import Verif.Lemmas.PathTail
import Verif.Lemmas.BlockLimit
import Verif.Props.ExactRecovery
import Verif.Props.HillRecovery

/-!
# One endless run: C222
-/

open MeasureTheory ProbabilityTheory Filter
open scoped ENNReal Topology

namespace PyCTBN
open Spec JumpPaths Indep

noncomputable section

/-! ## Statistics that settle -/

/-- Rows of growing size whose statistics settle at those of the stationary process: times and counts per unit of size converge to `1 / k` times their stationary values, and, given
all parents, the counts differ from the rates times the times by less than the order of the square root of the size times its logarithm. -/
structure StrongRows (N : Ctbn) (π : List Nat → ℝ) {ι : Type} (l : Filter ι) (size : ι → ℝ) (k : ℝ) (rows : ι → List RawTraj) : Prop where
  grows : Tendsto size l atTop
  pos : 0 < k
  residence : ∀ v ∈ N.vars, ∀ L : List Label, (∀ p ∈ L, p ∈ N.vars) → ∀ (x : Nat) (u : List Nat),
    Tendsto (fun m => (rawResidence N.vars (rows m) v L x u : ℝ) / size m) l (𝓝 (share N π v L x u / k))
  transitions : ∀ v ∈ N.vars, ∀ L : List Label, (∀ p ∈ L, p ∈ N.vars) → ∀ (x : Nat) (u : List Nat), ∀ y < N.card v, y ≠ x →
    Tendsto (fun m => (rawTransitions N.vars (rows m) v L x y u : ℝ) / size m) l (𝓝 (flux N N.inverseRates π v L x y u / k))
  balance : ∀ v ∈ N.vars, ∀ L : List Label, (∀ p ∈ L, p ∈ N.vars) → (∀ p ∈ N.parents v, p ∈ L) → ∀ (x : Nat) (u : List Nat), ∀ y < N.card v, y ≠ x →
    Tendsto (fun m => ((rawTransitions N.vars (rows m) v L x y u : ℝ) - N.inverseAt v (N.parentPart v L u) x y * (rawResidence N.vars (rows m) v L x u : ℝ)) ^ 2
      / (size m * Real.log (size m))) l (𝓝 0)
  usable : ∀ᶠ m in l, UsableData N (rows m)

theorem likely_sure {ι : Type} {l : Filter ι} {Q : ι → Prop} : Likely (Measure.dirac ()) l (fun m _ => Q m) ↔ ∀ᶠ m in l, Q m := by
  classical
  have e : ∀ m, Measure.dirac () {_ω : Unit | ¬ Q m} = if Q m then 0 else 1 := by
    intro m
    by_cases h : Q m
    · simp [h]
    · simp [h]
  unfold Likely
  simp only [e]
  constructor
  · intro h
    filter_upwards [h.eventually (gt_mem_nhds one_pos)] with m hm
    by_contra hQ
    rw [if_neg hQ] at hm
    exact lt_irrefl _ hm
  · intro h
    refine tendsto_const_nhds.congr' ?_
    filter_upwards [h] with m hm
    rw [if_pos hm]

/-- Statistics that settle are typical, with certainty. -/
theorem StrongRows.typical {N : Ctbn} {π : List Nat → ℝ} {ι : Type} {l : Filter ι} {size : ι → ℝ} {k : ℝ} {rows : ι → List RawTraj} (h : StrongRows N π l size k rows) :
    TypicalRows N π (Measure.dirac ()) l size k (fun m _ => rows m) where
  grows := h.grows
  pos := h.pos
  close {ε} hε v hv L hL x u := by
    have near : ∀ {f : ι → ℝ} {c : ℝ}, Tendsto f l (𝓝 c) → ∀ᶠ m in l, |f m - c| < ε := fun hf => by
      have := (Metric.tendsto_nhds.1 hf) ε hε
      simpa only [Real.dist_eq] using this
    refine ⟨likely_sure.2 (near (h.residence v hv L hL x u)), fun y hy hyx => ⟨likely_sure.2 (near (h.transitions v hv L hL x u y hy hyx)), fun hP => likely_sure.2 ?_⟩⟩
    exact (h.balance v hv L hL hP x u y hy hyx).eventually (gt_mem_nhds hε)
  usable := likely_sure.2 h.usable

/-- Several trajectories whose statistics settle, put together. -/
theorem StrongRows.pool {N : Ctbn} {π : List Nat → ℝ} {ι : Type} {l : Filter ι} {size : ι → ℝ} {k : ℝ} {rows : ℕ → ι → List RawTraj} {K : Nat} (hK : 0 < K)
    (h : ∀ i < K, StrongRows N π l size k (rows i)) : StrongRows N π l size (k / K) (fun m => (List.range K).flatMap (fun i => rows i m)) := by
  have hK' : (0 : ℝ) < K := by exact_mod_cast hK
  have hT := TypicalRows.pool (rows := fun i m (_ : Unit) => rows i m) hK (fun i hi => (h i hi).typical)
  refine ⟨hT.grows, hT.pos, fun v hv L hL x u => ?_, fun v hv L hL x u y hy hyx => ?_, fun v hv L hL hP x u y hy hyx => ?_, likely_sure.1 hT.usable⟩
  · refine Metric.tendsto_nhds.2 (fun ε hε => ?_)
    simpa only [Real.dist_eq] using likely_sure.1 (hT.close hε hv hL x u).1
  · refine Metric.tendsto_nhds.2 (fun ε hε => ?_)
    simpa only [Real.dist_eq] using likely_sure.1 ((hT.close hε hv hL x u).2 y hy hyx).1
  · refine Metric.tendsto_nhds.2 (fun ε hε => ?_)
    filter_upwards [likely_sure.1 (((hT.close hε hv hL x u).2 y hy hyx).2 hP), hT.grows.eventually_gt_atTop 1] with m hm h1
    have hpos : 0 < size m * Real.log (size m) := mul_pos (by linarith) (Real.log_pos h1)
    rw [Real.dist_eq, sub_zero, abs_of_nonneg (by positivity)]
    exact hm

/-- Statistics that settle still do when they are looked at along another scale. -/
theorem StrongRows.rescale {N : Ctbn} {π : List Nat → ℝ} {k : ℝ} {rows : ℕ → List RawTraj} (h : StrongRows N π atTop (fun m : ℕ => (m : ℝ)) k rows) {count : ℝ → ℕ}
    (hc : Tendsto count atTop atTop) (hk : Tendsto (fun T => (count T : ℝ) / T) atTop (𝓝 k)) : StrongRows N π atTop (fun T : ℝ => T) 1 (fun T => rows (count T)) := by
  have hpos := h.pos
  have scale : ∀ {f : ℕ → ℝ} {c : ℝ}, Tendsto (fun m : ℕ => f m / m) atTop (𝓝 (c / k)) → Tendsto (fun T : ℝ => f (count T) / T) atTop (𝓝 (c / 1)) := by
    intro f c hf
    have := (hf.comp hc).mul hk
    rw [div_mul_cancel₀ _ hpos.ne'] at this
    rw [div_one]
    refine this.congr' ?_
    filter_upwards [hc.eventually_ge_atTop 1] with T hT
    have : (0 : ℝ) < count T := by exact_mod_cast hT
    simp only [Function.comp]
    field_simp
  refine ⟨tendsto_id, one_pos, fun v hv L hL x u => scale (h.residence v hv L hL x u), fun v hv L hL x u y hy hyx => scale (h.transitions v hv L hL x u y hy hyx),
    fun v hv L hL hP x u y hy hyx => ?_, hc.eventually h.usable⟩
  have h1 := (h.balance v hv L hL hP x u y hy hyx).comp hc
  have h2 : ∀ᶠ T : ℝ in atTop, (count T : ℝ) * Real.log (count T) ≤ 2 * (k + 1) * (T * Real.log T) := by
    filter_upwards [hk.eventually (gt_mem_nhds (lt_add_one k)), eventually_ge_atTop (k + 1), eventually_gt_atTop 1, hc.eventually_ge_atTop 1] with T hT hT1 hT2 hT3
    have hT0 : 0 < T := by linarith
    have hn : (1 : ℝ) ≤ count T := by exact_mod_cast hT3
    rw [div_lt_iff₀ hT0] at hT
    have hl : Real.log (count T) ≤ 2 * Real.log T := by
      calc Real.log (count T) ≤ Real.log (T * T) := Real.log_le_log (by linarith) (hT.le.trans (mul_le_mul_of_nonneg_right hT1 hT0.le))
        _ = 2 * Real.log T := by rw [Real.log_mul hT0.ne' hT0.ne']; ring
    calc (count T : ℝ) * Real.log (count T) ≤ ((k + 1) * T) * (2 * Real.log T) := mul_le_mul hT.le hl (Real.log_nonneg hn) (by positivity)
      _ = _ := by ring
  have h3 := h1.const_mul (2 * (k + 1))
  rw [mul_zero] at h3
  refine tendsto_of_tendsto_of_tendsto_of_le_of_le' tendsto_const_nhds h3 ?_ ?_
  · filter_upwards [eventually_gt_atTop 1] with T hT
    have := Real.log_pos hT
    positivity
  · filter_upwards [h2, eventually_gt_atTop 1, hc.eventually_gt_atTop 1] with T hT hT1 hn
    have hn : (1 : ℝ) < count T := by exact_mod_cast hn
    have hl := Real.log_pos hn
    have hl' := Real.log_pos hT1
    simp only [Function.comp]
    rw [← mul_div_assoc, div_le_div_iff₀ (by positivity) (by positivity)]
    calc _ ≤ _ := mul_le_mul_of_nonneg_left hT (sq_nonneg _)
      _ = _ := by ring

/-! ## Sums over the moves after the first -/

theorem rest_on_path (e : Increment) : ∀ (m : Nat) {n : Nat} (σ : Fin n → Step) (vals : List Nat) (t : ℝ) (ms : List Move), ms.length = n →
    (∀ i : Fin n, (ms[i.val]?).map (fun m => (m.var, m.target)) = some ((σ i).1, (σ i).2)) →
    listTotal e (statesAfter vals (ms.take m)) (clockAfter t (ms.take m)) (ms.drop m) = restTotal e m σ vals t (holds n ms) := by
  intro m
  induction m with
  | zero =>
    intro n σ vals t ms h hs
    simp only [List.take_zero, List.drop_zero, restTotal]
    have : statesAfter vals [] = vals := rfl
    rw [this, show clockAfter t [] = t by simp [clockAfter]]
    exact listTotal_on_path e σ vals t ms h hs
  | succ k ih =>
    intro n σ vals t ms h hs
    cases n with
    | zero =>
      have : ms = [] := List.length_eq_zero_iff.1 h
      subst this
      simp [listTotal, restTotal]
    | succ n =>
      obtain ⟨m, ms, rfl⟩ : ∃ m ms', ms = m :: ms' := by
        cases ms with
        | nil => simp at h
        | cons m ms => exact ⟨m, ms, rfl⟩
      have h0 := hs 0
      simp only [Fin.val_zero, List.getElem?_cons_zero, Option.map_some, Option.some.injEq, Prod.mk.injEq] at h0
      have i1 := ih (Fin.tail σ) (after vals (σ 0)) (t + m.hold) ms (by simpa using h) (fun i => by
        have := hs i.succ
        simpa [Fin.tail] using this)
      have ev : vals.set m.var m.target = after vals (σ 0) := by rw [h0.1, h0.2]; rfl
      have eh0 : holds (n + 1) (m :: ms) 0 = m.hold := by simp [holds]
      have eh : Fin.tail (holds (n + 1) (m :: ms)) = holds n ms := by funext i; simp [holds, Fin.tail]
      rw [List.take_succ_cons, List.drop_succ_cons, clockAfter_cons, restTotal, eh0, eh, ← i1, ← ev]
      rfl

theorem listTotal_shift (e : Increment) (c : ℝ) (ms : List Move) : ∀ vals t,
    listTotal (fun vals t s a => e vals t s a - c) vals t ms = listTotal e vals t ms - ms.length * c := by
  induction ms with
  | nil => intro vals t; simp [listTotal]
  | cons m ms ih =>
    intro vals t
    rw [listTotal, listTotal, ih, List.length_cons]
    push_cast
    ring

section
variable {net : SampleNet} {N : Ctbn} (hD : Describes net N) (hOK : N.OK)
include hD hOK
variable {U : Type} [MeasurableSpace U] {P : Measure U} [IsProbabilityMeasure P] (C : Categorical U P)

/-- The exponential tails of the sums over the moves from one number of transitions to another. -/
theorem sampled_increment_tail (hc : N.Conservative) (hirr : N.Irreducible) {π : List Nat → ℝ} (hπ : Stationary N N.inverseRates π)
    (b : List Nat → Step → ℝ) (w : List Nat → ℝ) {c : ℝ}
    (hval : ∑ a ∈ N.joint, π a * (∑ s ∈ steps N, N.inverseRates a (N.vars.getD s.1 "") s.2 * b a s + w a) = c * pace N N.inverseRates π) :
    ∃ B K θ₀ : ℝ, 0 < B ∧ 0 ≤ K ∧ 0 < θ₀ ∧ ∀ m j : ℕ, ∀ θ : ℝ, 0 ≤ θ → θ ≤ θ₀ → ∀ δ : ℝ, drawLaw N.vars.length P {ω |
      δ ≤ |(listTotal (linStep b w) (N.vars.map (fun _ => 0)) 0 (sampledMoves net C (m + j) ω) - ((m + j : ℕ) : ℝ) * c)
        - (listTotal (linStep b w) (N.vars.map (fun _ => 0)) 0 (sampledMoves net C m ω) - m * c)|} ≤ ENNReal.ofReal (2 * Real.exp (-(θ * δ) + B * θ ^ 2 * j + K * θ)) := by
  have hpos := leaves_of_conservative hD hOK hc
  have hU := usable_inverse hD hOK hpos
  have hr : N.InRange (N.vars.map (fun _ => 0)) := zeros_inRange hOK
  obtain ⟨A, K, Rm, hRm, hle, -, hA, hbound⟩ := centered_bounded hOK hU (connected_inverse hD hOK hc hirr) hπ b w (c := c)
    (by rw [hval, mul_div_assoc, div_self (pace_pos hOK hU hπ).ne', mul_one])
  have hK0 : 0 ≤ K := (abs_nonneg _).trans (hbound 0 _ hr 0)
  have hA0 := hA.nonneg
  set A' := A + 2 * K + 1 with hA'
  have hA'0 : 0 < A' := by rw [hA']; positivity
  set B := 64 * A' ^ 2 / Rm ^ 2 * Real.exp (Rm / 2) with hB
  refine ⟨B, K, Rm / (4 * A'), by positivity, hK0, by positivity, fun m j θ hθ0 hθ δ => ?_⟩
  set zeros := N.vars.map (fun _ => 0) with hz
  set e : Increment := fun vals t s a => linStep b w vals t s a - c with he
  have hdraw : IsProbabilityMeasure (drawLaw N.vars.length P) := by unfold drawLaw; infer_instance
  let n := j + m
  have hm : ∀ L : List MoveEvent, L.length = n → Proper N L → MeasurableSet {ω | MovesAre (net.movesR n (drawsAt (m := N.vars.length) C ω) net.initClock) L} := by
    intro L hl hL; rw [← hl]; exact measurable_moves hD hOK C hL
  have hl : ∀ L : List MoveEvent, L.length = n → Proper N L → drawLaw N.vars.length P {ω | MovesAre (net.movesR n (drawsAt C ω) net.initClock) L}
      = ENNReal.ofReal (jumpLaw N N.inverseRates L zeros) := by
    intro L hl hL; rw [← hl]; exact sample_moves_law C hD hOK hpos hL
  let X := fun ω => (fun ms : List Move => listTotal e (statesAfter zeros (ms.take m)) (clockAfter 0 (ms.take m)) (ms.drop m)) (sampledMoves (m := N.vars.length) net C n ω)
  have hX : ∀ᵐ ω ∂drawLaw N.vars.length P, (listTotal (linStep b w) zeros 0 (sampledMoves net C (m + j) ω) - ((m + j : ℕ) : ℝ) * c)
        - (listTotal (linStep b w) zeros 0 (sampledMoves net C m ω) - m * c) = X ω := by
    filter_upwards [sampled_moves_genuine hD hOK C hpos n] with ω ⟨ms, h1, h2, _⟩
    have e1 : sampledMoves net C n ω = ms := by unfold sampledMoves; rw [h1]; rfl
    have e2 : sampledMoves net C m ω = ms.take m := by
      unfold sampledMoves
      rw [movesR_take h1 (by omega : m ≤ n)]; rfl
    simp only [X]
    rw [show m + j = n from Nat.add_comm m j, e1, e2]
    have h3 := listTotal_append e (ms.take m) (ms.drop m) zeros 0
    rw [List.take_append_drop, he, listTotal_shift, listTotal_shift, h2, List.length_take, h2, min_eq_left (by omega : m ≤ n)] at h3
    linarith
  have hstat : ∀ s : ℝ, ∀ σ ∈ paths N n, ∀ ω ∈ onPath (fun ω => net.movesR n (drawsAt (m := N.vars.length) C ω) net.initClock) σ,
      Real.exp (s * X ω) = Real.exp (s * restTotal e m σ zeros 0 (holds n (movesOf (net.movesR n (drawsAt C ω) net.initClock)))) := by
    intro s σ _ ω hω
    simp only [onPath, Set.mem_ofPred_eq, movesAre_events] at hω
    obtain ⟨ms, a1, a2, a3, -⟩ := hω
    have e1 : sampledMoves net C n ω = ms := by unfold sampledMoves; rw [a1]; rfl
    simp only [X, e1]
    rw [rest_on_path e m σ zeros 0 ms a2 a3, a1]
    rfl
  have hmom : ∀ s : ℝ, |s| = θ → Integrable (fun ω => Real.exp (s * X ω)) (drawLaw N.vars.length P) ∧
      ∫ ω, Real.exp (s * X ω) ∂drawLaw N.vars.length P ≤ Real.exp (B * θ ^ 2 * j + K * θ) := by
    intro s hs
    have hs' : |s| ≤ Rm / (4 * A') := hs ▸ hθ
    have hsmall : |s| * A < Rm := by
      have h1 : |s| * A' ≤ Rm / 4 := by
        calc |s| * A' ≤ Rm / (4 * A') * A' := mul_le_mul_of_nonneg_right hs' hA'0.le
          _ = Rm / 4 := by field_simp
      have h2 : |s| * A ≤ |s| * A' := mul_le_mul_of_nonneg_left (by rw [hA']; linarith) (abs_nonneg s)
      linarith
    obtain ⟨iD, eD⟩ := expectation (μ := drawLaw N.vars.length P) hU hr hm hl (G := fun ω => Real.exp (s * X ω)) (F := fun σ h => Real.exp (s * restTotal e m σ zeros 0 h))
      (hstat s) (fun σ hσ => integrable_exp_of_le hU hσ hr hle hsmall ((measurable_rest hA m σ zeros).comp measurable_prodMk_left) (abs_rest_le hU hA m hσ hr 0))
    refine ⟨iD, ?_⟩
    rw [eD]
    refine exp_rest hU hA hle hsmall (k := j) (fun {vals} hr t => ?_) m hr 0
    refine (exp_total hU hA hRm hle hbound hA' hB hs' j hr t).trans ?_
    refine Real.exp_le_exp.2 ?_
    have h1 := hbound j vals hr t
    have h2 : s ^ 2 = θ ^ 2 := by rw [← hs, sq_abs]
    rw [h2]
    have h3 : s * meanTotal N N.inverseRates e j vals t ≤ θ * K := by
      refine (le_abs_self _).trans ?_
      rw [abs_mul, hs]
      exact mul_le_mul_of_nonneg_left h1 hθ0
    linarith
  obtain ⟨i1, b1⟩ := hmom θ (abs_of_nonneg hθ0)
  obtain ⟨i2, b2⟩ := hmom (-θ) (by rw [abs_neg, abs_of_nonneg hθ0])
  have hmark := mul_meas_ge_le_integral_of_nonneg (μ := drawLaw N.vars.length P) (f := fun ω => Real.exp (θ * X ω) + Real.exp (-θ * X ω))
    (.of_forall (fun ω => by positivity)) (i1.add i2) (Real.exp (θ * δ))
  rw [integral_add i1 i2] at hmark
  have hset : drawLaw N.vars.length P {ω | δ ≤ |(listTotal (linStep b w) zeros 0 (sampledMoves net C (m + j) ω) - ((m + j : ℕ) : ℝ) * c)
        - (listTotal (linStep b w) zeros 0 (sampledMoves net C m ω) - m * c)|}
      ≤ drawLaw N.vars.length P {ω | Real.exp (θ * δ) ≤ Real.exp (θ * X ω) + Real.exp (-θ * X ω)} := by
    refine measure_mono_ae ?_
    filter_upwards [hX] with ω hω h
    change δ ≤ _ at h
    rw [hω] at h
    change Real.exp (θ * δ) ≤ _
    rcases le_abs.1 h with h | h
    · exact (Real.exp_le_exp.2 (mul_le_mul_of_nonneg_left h hθ0)).trans (le_add_of_nonneg_right (Real.exp_pos _).le)
    · refine (Real.exp_le_exp.2 ?_).trans (le_add_of_nonneg_left (Real.exp_pos _).le)
      rw [neg_mul, ← mul_neg]
      exact mul_le_mul_of_nonneg_left h hθ0
  refine hset.trans ?_
  rw [← ofReal_measureReal]
  refine ENNReal.ofReal_le_ofReal ?_
  have h4 : Real.exp (θ * δ) * (drawLaw N.vars.length P).real {ω | Real.exp (θ * δ) ≤ Real.exp (θ * X ω) + Real.exp (-θ * X ω)} ≤ 2 * Real.exp (B * θ ^ 2 * j + K * θ) := by
    linarith
  rw [show -(θ * δ) + B * θ ^ 2 * j + K * θ = -(θ * δ) + (B * θ ^ 2 * j + K * θ) by ring, Real.exp_add, Real.exp_neg]
  rw [show 2 * ((Real.exp (θ * δ))⁻¹ * Real.exp (B * θ ^ 2 * j + K * θ)) = (Real.exp (θ * δ))⁻¹ * (2 * Real.exp (B * θ ^ 2 * j + K * θ)) by ring]
  rwa [le_inv_mul_iff₀ (Real.exp_pos _)]

/-- Almost surely, the sums are close to their long-run values on the scale of the square root of the number of transitions times its logarithm. -/
theorem sampled_total_strong (hc : N.Conservative) (hirr : N.Irreducible) {π : List Nat → ℝ} (hπ : Stationary N N.inverseRates π)
    (b : List Nat → Step → ℝ) (w : List Nat → ℝ) {c : ℝ}
    (hval : ∑ a ∈ N.joint, π a * (∑ s ∈ steps N, N.inverseRates a (N.vars.getD s.1 "") s.2 * b a s + w a) = c * pace N N.inverseRates π) :
    ∀ᵐ ω ∂drawLaw N.vars.length P, ∀ ε > 0, ∀ᶠ n : ℕ in atTop,
      (listTotal (linStep b w) (N.vars.map (fun _ => 0)) 0 (sampledMoves net C n ω) - n * c) ^ 2 < ε * (n * Real.log n) := by
  obtain ⟨B, K, θ₀, hB, hK, hθ₀, h⟩ := sampled_increment_tail hD hOK C hc hirr hπ b w hval
  have key : ∀ k : ℕ, ∀ᵐ ω ∂drawLaw N.vars.length P, ∀ᶠ n : ℕ in atTop,
      (listTotal (linStep b w) (N.vars.map (fun _ => 0)) 0 (sampledMoves net C n ω) - n * c) ^ 2 < 1 / ((k : ℝ) + 1) * (n * Real.log n) := fun k =>
    Blocks.ae_small (S := fun n ω => listTotal (linStep b w) (N.vars.map (fun _ => 0)) 0 (sampledMoves net C n ω) - n * c) hB hK hθ₀
      (.of_forall (fun ω => by
        have : sampledMoves net C 0 ω = [] := by unfold sampledMoves SampleNet.movesR; rfl
        simp [this, listTotal])) h (by positivity)
  filter_upwards [ae_all_iff.2 key] with ω hω ε hε
  obtain ⟨k, hk⟩ := exists_nat_one_div_lt hε
  filter_upwards [hω k, eventually_ge_atTop 2] with n hn hn2
  refine hn.trans_le (mul_le_mul_of_nonneg_right hk.le ?_)
  have : (1 : ℝ) ≤ n := by exact_mod_cast (by omega : 1 ≤ n)
  exact mul_nonneg (by linarith) (Real.log_nonneg this)

end

instance : Countable String := by
  have h1 : Function.Injective (fun c : Char => c.toNat) := fun a b h => Char.toNat_inj.1 h
  have : Countable Char := h1.countable
  have h2 : Function.Injective String.toList := fun a b h => String.toList_inj.1 h
  exact h2.countable

theorem eventually_near {X Y : ℕ → ℝ} {c : ℝ} (hXY : ∀ n, |X n - Y n| ≤ 1) (h : ∀ ε > 0, ∀ᶠ n : ℕ in atTop, (Y n - n * c) ^ 2 < ε * (n * Real.log n)) :
    ∀ ε > 0, ∀ᶠ n : ℕ in atTop, (X n - n * c) ^ 2 < ε * (n * Real.log n) := by
  intro ε hε
  have hlog : Tendsto (fun n : ℕ => Real.log n) atTop atTop := Real.tendsto_log_atTop.comp tendsto_natCast_atTop_atTop
  filter_upwards [h (ε / 4) (by positivity), hlog.eventually_gt_atTop (4 / ε), eventually_ge_atTop 1] with n hn hl h1
  have h1' : (1 : ℝ) ≤ n := by exact_mod_cast h1
  have hl' : 4 / ε < n * Real.log n := hl.trans_le (by nlinarith [(by positivity : (0 : ℝ) < 4 / ε)])
  rw [div_lt_iff₀ hε] at hl'
  have h2 := hXY n
  have h3 : (X n - Y n) ^ 2 ≤ 1 := by rw [← sq_abs]; nlinarith [abs_nonneg (X n - Y n)]
  have h4 : (X n - n * c) ^ 2 ≤ 2 * (X n - Y n) ^ 2 + 2 * (Y n - n * c) ^ 2 := by nlinarith [sq_nonneg ((X n - Y n) - (Y n - n * c))]
  nlinarith

theorem eventually_mean {X : ℕ → ℝ} {c : ℝ} (h : ∀ ε > 0, ∀ᶠ n : ℕ in atTop, (X n - n * c) ^ 2 < ε * (n * Real.log n)) : Tendsto (fun n : ℕ => X n / n) atTop (𝓝 c) := by
  refine Metric.tendsto_nhds.2 (fun ε hε => ?_)
  filter_upwards [h (ε ^ 2) (by positivity), eventually_ge_atTop 1] with n hn h1
  have h1' : (1 : ℝ) ≤ n := by exact_mod_cast h1
  rw [Real.dist_eq, show X n / n - c = (X n - n * c) / n by field_simp, abs_div, abs_of_pos (by linarith : (0 : ℝ) < n), div_lt_iff₀ (by linarith)]
  refine abs_lt_of_sq_lt_sq (hn.trans_le ?_) (by positivity)
  rw [mul_pow]
  refine mul_le_mul_of_nonneg_left ?_ (by positivity)
  rw [pow_two]
  exact mul_le_mul_of_nonneg_left ((Real.log_le_sub_one_of_pos (by linarith)).trans (by linarith)) (by linarith)

theorem eventually_balance {X : ℕ → ℝ} (h : ∀ ε > 0, ∀ᶠ n : ℕ in atTop, (X n - n * 0) ^ 2 < ε * (n * Real.log n)) :
    Tendsto (fun n : ℕ => X n ^ 2 / (n * Real.log n)) atTop (𝓝 0) := by
  refine Metric.tendsto_nhds.2 (fun ε hε => ?_)
  filter_upwards [h ε hε, eventually_ge_atTop 2] with n hn h1
  have h1' : (2 : ℝ) ≤ n := by exact_mod_cast h1
  have hl := Real.log_pos (by linarith : (1 : ℝ) < n)
  rw [Real.dist_eq, sub_zero, abs_of_nonneg (by positivity), div_lt_iff₀ (by positivity)]
  simpa using hn

section
variable {net : SampleNet} {N : Ctbn} (hD : Describes net N) (hOK : N.OK)
include hD hOK
variable {U : Type} [MeasurableSpace U] {P : Measure U} [IsProbabilityMeasure P] (C : Categorical U P)

/-- **C222** (statistics).  Almost surely, along one endless run of draws, the statistics of the rows `CTBN_Sample(max_tr = m)` returns settle as `m` grows. -/
theorem sampled_strong (hc : N.Conservative) (hirr : N.Irreducible) {π : List Nat → ℝ} (hπ : Stationary N N.inverseRates π) :
    ∀ᵐ ω ∂drawLaw N.vars.length P, StrongRows N π atTop (fun m : ℕ => (m : ℝ)) (pace N N.inverseRates π) (fun m => [sampledRows net C m ω]) := by
  have hpos := leaves_of_conservative hD hOK hc
  have hU := usable_inverse hD hOK hpos
  have hp := (pace_pos hOK hU hπ).ne'
  have h1 : ∀ᵐ ω ∂drawLaw N.vars.length P, ∀ v ∈ N.vars, ∀ L : List Label, (∀ p ∈ L, p ∈ N.vars) → ∀ (x : Nat) (u : List Nat),
      Tendsto (fun m : ℕ => (rawResidence N.vars [sampledRows net C m ω] v L x u : ℝ) / m) atTop (𝓝 (share N π v L x u / pace N N.inverseRates π)) := by
    simp only [ae_all_iff]
    intro v hv L hL x u
    filter_upwards [sampled_total_strong hD hOK C hc hirr hπ (fun _ _ => 0) (caseInd N v L x u) (c := share N π v L x u / pace N N.inverseRates π) (by
      rw [div_mul_cancel₀ _ hp]
      unfold share caseInd
      refine Finset.sum_congr rfl (fun a _ => ?_)
      split_ifs <;> simp)] with ω hω
    simp only [(sampledRows_sums hD hOK C hv hL (x := x) (y := x + 1) (by omega) u _ ω).1]
    exact eventually_mean hω
  have h2 : ∀ᵐ ω ∂drawLaw N.vars.length P, ∀ v ∈ N.vars, ∀ L : List Label, (∀ p ∈ L, p ∈ N.vars) → ∀ (x : Nat) (u : List Nat), ∀ y < N.card v, y ≠ x →
      Tendsto (fun m : ℕ => (rawTransitions N.vars [sampledRows net C m ω] v L x y u : ℝ) / m) atTop (𝓝 (flux N N.inverseRates π v L x y u / pace N N.inverseRates π)) := by
    simp only [ae_all_iff]
    intro v hv L hL x u y hy hxy
    filter_upwards [sampled_total_strong hD hOK C hc hirr hπ (caseStep N v L x y u) (fun _ => 0) (c := flux N N.inverseRates π v L x y u / pace N N.inverseRates π) (by
      rw [div_mul_cancel₀ _ hp]
      unfold flux
      refine Finset.sum_congr rfl (fun a _ => ?_)
      rw [sum_caseStep hOK a hv L x hy u, add_zero]
      split_ifs <;> simp)] with ω hω
    refine eventually_mean (eventually_near (fun n => ?_) hω)
    obtain ⟨-, h1, h2⟩ := sampledRows_sums hD hOK C hv hL hxy u n ω
    rw [abs_le]
    constructor <;> linarith
  have h3 : ∀ᵐ ω ∂drawLaw N.vars.length P, ∀ v ∈ N.vars, ∀ L : List Label, (∀ p ∈ L, p ∈ N.vars) → (∀ p ∈ N.parents v, p ∈ L) → ∀ (x : Nat) (u : List Nat), ∀ y < N.card v, y ≠ x →
      Tendsto (fun m : ℕ => ((rawTransitions N.vars [sampledRows net C m ω] v L x y u : ℝ)
        - N.inverseAt v (N.parentPart v L u) x y * (rawResidence N.vars [sampledRows net C m ω] v L x u : ℝ)) ^ 2 / (m * Real.log m)) atTop (𝓝 0) := by
    simp only [ae_all_iff]
    intro v hv L hL hP x u y hy hxy
    set r := N.inverseAt v (N.parentPart v L u) x y with hr
    filter_upwards [sampled_total_strong hD hOK C hc hirr hπ (caseStep N v L x y u) (fun a => -r * caseInd N v L x u a) (c := 0) (by
      rw [zero_mul]
      refine Finset.sum_eq_zero (fun a ha => ?_)
      rw [sum_caseStep hOK a hv L x hy u]
      unfold caseInd
      split_ifs with hcase
      · rw [inverse_at hD hOK hc hv hxy ((mem_joint hOK).1 ha) (parentStates_of hP hcase), ← hr]; ring
      · simp)] with ω hω
    refine eventually_balance (eventually_near (fun n => ?_) hω)
    obtain ⟨h0, h1, h2⟩ := sampledRows_sums hD hOK C hv hL hxy u n ω
    rw [listTotal_sub, h0, abs_le]
    constructor <;> linarith
  have h4 : ∀ᵐ ω ∂drawLaw N.vars.length P, ∀ m : ℕ, 1 ≤ m → UsableRows N (sampledRows net C m ω) := by
    simp only [ae_all_iff]
    intro m hm
    exact sampled_rows_usable hD hOK C hpos hm
  filter_upwards [h1, h2, h3, h4] with ω g1 g2 g3 g4
  exact ⟨tendsto_natCast_atTop_atTop, pace_pos hOK hU hπ, g1, g2, g3, by
    filter_upwards [eventually_ge_atTop 1] with m hm
    exact usableData_single (g4 m hm)⟩

/-- **C222** (end times).  Almost surely, along one endless run of draws, `CTBN_Sample(t_end = T)` returns, for every `T`, the rows `CTBN_Sample(max_tr = n)` returns for some `n`,
and this number grows like the stationary pace times `T`. -/
theorem end_counts (hc : N.Conservative) (hirr : N.Irreducible) {π : List Nat → ℝ} (hπ : Stationary N N.inverseRates π) :
    ∀ᵐ ω ∂drawLaw N.vars.length P, ∃ count : ℝ → ℕ, (∀ T > 0, endRows net C T ω = sampledRows net C (count T) ω) ∧ Tendsto count atTop atTop ∧
      Tendsto (fun T => (count T : ℝ) / T) atTop (𝓝 (pace N N.inverseRates π)) := by
  have hpos := leaves_of_conservative hD hOK hc
  have hU := usable_inverse hD hOK hpos
  have hp := pace_pos hOK hU hπ
  set p := pace N N.inverseRates π with hpdef
  have hclock := sampled_total_strong hD hOK C hc hirr hπ (fun _ _ => 0) (fun _ => 1) (c := 1 / p) (by
    rw [div_mul_cancel₀ _ hp.ne']
    simpa using hπ.one)
  filter_upwards [hclock, ae_all_iff.2 (fun k : ℕ => clock_passes hD hOK C hc hirr (k : ℝ)), ae_all_iff.2 (fun n => sampled_moves_genuine hD hOK C hpos n)] with ω hω hpass hgen
  let clk : ℕ → ℝ := fun n => clockAfter 0 (sampledMoves net C n ω)
  have hclk0 : clk 0 = 0 := by
    have : sampledMoves net C 0 ω = [] := rfl
    simp [clk, this, clockAfter]
  have hmono : Monotone clk := by
    refine monotone_nat_of_le_succ (fun n => ?_)
    obtain ⟨ms, h1, h2, h3⟩ := hgen (n + 1)
    have e1 : sampledMoves net C (n + 1) ω = ms := by unfold sampledMoves movesOf; rw [h1]
    have e2 : sampledMoves net C n ω = ms.take n := by unfold sampledMoves movesOf; rw [movesR_take h1 (by omega)]
    simp only [clk, e1, e2]
    conv_rhs => rw [← List.take_append_drop n ms]
    rw [clockAfter_append]
    exact clockAfter_le (fun m hm => by obtain ⟨-, -, -, h⟩ := h3 m (List.mem_of_mem_drop hm); exact h.le)
  have hex : ∀ T : ℝ, ∃ n, T ≤ clk (n + 1) := by
    intro T
    obtain ⟨k, hk⟩ := exists_nat_ge T
    obtain ⟨n, hn⟩ := hpass k
    exact ⟨n, hk.trans (hn.trans (hmono (Nat.le_succ n)))⟩
  classical
  let count : ℝ → ℕ := fun T => Nat.find (hex T)
  have hc1 : ∀ T, T ≤ clk (count T + 1) := fun T => Nat.find_spec (hex T)
  have hc2 : ∀ T > 0, clk (count T) < T := by
    intro T hT
    rcases Nat.eq_zero_or_pos (count T) with h | h
    · rw [h, hclk0]; exact hT
    · have := Nat.find_min (hex T) (m := count T - 1) (Nat.sub_lt h one_pos)
      rw [not_le, show count T - 1 + 1 = count T by omega] at this
      exact this
  have hmeans : Tendsto (fun n : ℕ => clk n / n) atTop (𝓝 (1 / p)) := by
    refine eventually_mean (eventually_near (Y := fun n => listTotal (linStep (fun _ _ => 0) (fun _ => 1)) (N.vars.map (fun _ => 0)) 0 (sampledMoves net C n ω)) (fun n => ?_) hω)
    rw [listTotal_clock, round4R_zero, Rat.cast_zero, sub_zero, abs_sub_comm]
    exact (round4R_near _).trans (by norm_num)
  have hgrow : Tendsto count atTop atTop := by
    refine tendsto_atTop.2 (fun n => ?_)
    filter_upwards [eventually_gt_atTop (clk n)] with T hT
    by_contra h
    exact absurd (hc1 T) (not_le.2 ((hmono (by omega)).trans_lt hT))
  refine ⟨count, fun T hT => ?_, hgrow, ?_⟩
  · obtain ⟨ms, h1, h2, h3⟩ := hgen (count T + 1)
    have e1 : sampledMoves net C (count T + 1) ω = ms := by unfold sampledMoves movesOf; rw [h1]
    have e2 : net.movesR (count T) (drawsAt C ω) net.initClock = .ok (ms.take (count T)) := movesR_take h1 (by omega)
    have e2' : sampledMoves net C (count T) ω = ms.take (count T) := by unfold sampledMoves movesOf; rw [e2]
    have hstop := movesBefore_stops ms hT (by rw [← e1]; exact hc1 T)
    have hrun := runR_of_moves (T := T) (by linarith) 0 h1 hstop (count T + 1) le_rfl
    have hpre : ms.take (count T) <+: movesBefore T 0 ms := by
      conv_rhs => rw [← List.take_append_drop (count T) ms]
      exact prefix_movesBefore _ _ (fun m hm => by obtain ⟨-, -, -, h⟩ := h3 m (List.mem_of_mem_take hm); exact h.le) (by rw [← e2']; exact hc2 T hT)
    have heq : movesBefore T 0 ms = ms.take (count T) := by
      refine (hpre.eq_of_length_le ?_).symm
      rw [List.length_take, h2, min_eq_left (by omega)]
      omega
    have ht : net.initClock.t = 0 := rfl
    rw [endRows_eq C ((sampleStopR_ok C).2 ⟨_, hrun, rfl⟩), ht, heq]
    unfold sampledRows SampleNet.sampleR
    rw [e2]
    rfl
  · have hlow := hmeans.comp hgrow
    have hshift : Tendsto (fun n : ℕ => clk (n + 1) / n) atTop (𝓝 (1 / p)) := by
      have h1 := (hmeans.comp (tendsto_add_atTop_nat 1)).mul (tendsto_const_nhds.add tendsto_one_div_atTop_nhds_zero_nat : Tendsto (fun n : ℕ => (1 : ℝ) + 1 / n) atTop (𝓝 (1 + 0)))
      rw [add_zero, mul_one] at h1
      refine h1.congr' ?_
      filter_upwards [eventually_ge_atTop 1] with n hn
      have : (0 : ℝ) < n := by exact_mod_cast hn
      simp only [Function.comp]
      push_cast
      field_simp
    have hup := hshift.comp hgrow
    have hinv : Tendsto (fun T => T / (count T : ℝ)) atTop (𝓝 (1 / p)) := by
      refine tendsto_of_tendsto_of_tendsto_of_le_of_le' hlow hup ?_ ?_
      · filter_upwards [eventually_gt_atTop 0] with T hT
        exact div_le_div_of_nonneg_right (hc2 T hT).le (by positivity)
      · filter_upwards with T
        exact div_le_div_of_nonneg_right (hc1 T) (by positivity)
    have := hinv.inv₀ (by positivity)
    simpa only [inv_div, div_one] using this

/-- **C222** (statistics, end times).  Almost surely, along one endless run of draws, the statistics of the rows `CTBN_Sample(t_end = T)` returns settle as `T` grows. -/
theorem end_strong (hc : N.Conservative) (hirr : N.Irreducible) {π : List Nat → ℝ} (hπ : Stationary N N.inverseRates π) :
    ∀ᵐ ω ∂drawLaw N.vars.length P, StrongRows N π atTop (fun T : ℝ => T) 1 (fun T => [endRows net C T ω]) := by
  filter_upwards [sampled_strong hD hOK C hc hirr hπ, end_counts hD hOK C hc hirr hπ] with ω h1 ⟨count, h2, h3, h4⟩
  have h5 := h1.rescale h3 h4
  have heq : ∀ᶠ T : ℝ in atTop, [sampledRows net C (count T) ω] = [endRows net C T ω] := by
    filter_upwards [eventually_gt_atTop 0] with T hT
    rw [h2 T hT]
  refine ⟨h5.grows, h5.pos, fun v hv L hL x u => (h5.residence v hv L hL x u).congr' ?_, fun v hv L hL x u y hy hyx => (h5.transitions v hv L hL x u y hy hyx).congr' ?_,
    fun v hv L hL hP x u y hy hyx => (h5.balance v hv L hL hP x u y hy hyx).congr' ?_, ?_⟩
  · filter_upwards [heq] with T hT; rw [hT]
  · filter_upwards [heq] with T hT; rw [hT]
  · filter_upwards [heq] with T hT; rw [hT]
  · filter_upwards [heq, h5.usable] with T hT hu; rwa [hT] at hu

/-- `K` independent endless runs. -/
theorem many_strong (hc : N.Conservative) (hirr : N.Irreducible) {π : List Nat → ℝ} (hπ : Stationary N N.inverseRates π) {K : Nat} (hK : 0 < K) :
    ∀ᵐ ω ∂manyLaw N.vars.length P, StrongRows N π atTop (fun m : ℕ => (m : ℝ)) (pace N N.inverseRates π / K) (fun m => pooledRows net C m K ω) ∧
      StrongRows N π atTop (fun T : ℝ => T) (1 / K) (fun T => pooledEnd net C T K ω) := by
  have hdraw : IsProbabilityMeasure (drawLaw N.vars.length P) := by unfold drawLaw; infer_instance
  have hco : ∀ i : ℕ, ∀ᵐ ω ∂manyLaw N.vars.length P, StrongRows N π atTop (fun m : ℕ => (m : ℝ)) (pace N N.inverseRates π) (fun m => [sampledRows net C m (ω i)]) ∧
      StrongRows N π atTop (fun T : ℝ => T) 1 (fun T => [endRows net C T (ω i)]) := by
    intro i
    have hev : MeasurePreserving (fun ω : ℕ → ℕ → (Fin N.vars.length → ℝ) × U => ω i) (Measure.infinitePi (fun _ : ℕ => drawLaw N.vars.length P)) (drawLaw N.vars.length P) :=
      measurePreserving_eval_infinitePi _ i
    exact hev.quasiMeasurePreserving.ae ((sampled_strong hD hOK C hc hirr hπ).and (end_strong hD hOK C hc hirr hπ))
  filter_upwards [ae_all_iff.2 hco] with ω hω
  simp only [pooledRows, pooledEnd, List.map_eq_flatMap]
  exact ⟨StrongRows.pool (rows := fun i m => [sampledRows net C m (ω i)]) hK (fun i _ => (hω i).1), StrongRows.pool (rows := fun i T => [endRows net C T (ω i)]) hK (fun i _ => (hω i).2)⟩

/-- **C222** (estimates).  Almost surely, as `K` independent trajectories are continued - one more transition, or some more time, at every step -, every intensity the library
estimates given all parents converges to the intensity divided by the square of the exit intensity. -/
theorem estimates_converge (hc : N.Conservative) (hirr : N.Irreducible) {K : Nat} (hK : 0 < K) : ∀ᵐ ω ∂manyLaw N.vars.length P,
    ∀ v ∈ N.vars, ∀ L : List Label, (∀ p ∈ L, p ∈ N.vars) → (∀ p ∈ N.parents v, p ∈ L) → ∀ vals, N.InRange vals → ∀ y < N.card v, y ≠ N.state vals v →
      Tendsto (fun m : ℕ => ((rawTransitions N.vars (pooledRows net C m K ω) v L (N.state vals v) y (L.map (N.state vals)) : ℝ) + 1)
        / ((rawResidence N.vars (pooledRows net C m K ω) v L (N.state vals v) (L.map (N.state vals)) : ℝ) + 1)) atTop (𝓝 (N.inverseAt v (N.parentStates vals v) (N.state vals v) y)) ∧
      Tendsto (fun T : ℝ => ((rawTransitions N.vars (pooledEnd net C T K ω) v L (N.state vals v) y (L.map (N.state vals)) : ℝ) + 1)
        / ((rawResidence N.vars (pooledEnd net C T K ω) v L (N.state vals v) (L.map (N.state vals)) : ℝ) + 1)) atTop (𝓝 (N.inverseAt v (N.parentStates vals v) (N.state vals v) y)) := by
  obtain ⟨π, hπ, hpos, -⟩ := sample_stationary hD hOK hc hirr
  filter_upwards [many_strong hD hOK C hc hirr hπ hK] with ω ⟨h1, h2⟩ v hv L hL hP vals hr y hy hyx
  have hcase : Circumstances N v L (N.state vals v) (L.map (N.state vals)) vals := ⟨rfl, rfl⟩
  have hshare : 0 < share N π v L (N.state vals v) (L.map (N.state vals)) := by
    unfold share
    refine Finset.sum_pos' (fun a ha => ?_) ⟨vals, (mem_joint hOK).2 hr, ?_⟩
    · split_ifs
      · exact hπ.nonneg a ha
      · exact le_rfl
    · rw [if_pos hcase]; exact hpos vals hr
  have hlim : flux N N.inverseRates π v L (N.state vals v) y (L.map (N.state vals)) / share N π v L (N.state vals v) (L.map (N.state vals))
      = N.inverseAt v (N.parentStates vals v) (N.state vals v) y := by
    rw [flux_of_parents hD hOK hc hv hP hyx, mul_div_cancel_right₀ _ hshare.ne', ← (parentStates_of hP hcase).2]
  rw [← hlim]
  constructor
  · refine Metric.tendsto_nhds.2 (fun ε hε => ?_)
    simpa only [Real.dist_eq] using likely_sure.1 (typical_estimate_limit h1.typical hv hL hyx hy _ hshare hε)
  · refine Metric.tendsto_nhds.2 (fun ε hε => ?_)
    simpa only [Real.dist_eq] using likely_sure.1 (typical_estimate_limit h2.typical hv hL hyx hy _ hshare hε)

/-- **C222** (score-based).  Almost surely, as `K` independent trajectories are continued, score-based estimation with the tabu search returns exactly the edges of the network from
some moment on, and always after it; this holds at once for all hyper-parameters, all prior knowledge of actual edges and all sufficient limits of the search. -/
theorem network_always_recovered (hcl : NoSuffixClash N.vars) (hT : "Time" ∉ N.vars) (hc : N.Conservative) (hpos : N.AllPositive) {c : Nat} (hc2 : 2 ≤ c)
    (hcard : ∀ v ∈ N.vars, N.card v = c) (hns : ∀ v ∈ N.vars, v ∉ N.parents v) (htell : ∀ n ∈ N.vars, ∀ p ∈ N.parents n, Tells N p n) {K : Nat} (hK : 0 < K) :
    ∀ᵐ ω ∂manyLaw N.vars.length P, ∀ (es : List Edge) (τ α : ℝ), 0 < τ → 0 < α → ∀ (R : List (List Bool)) (known : List Edge),
      buildRemovable (builtStruct N.vars (N.vars.map N.card) es) N.vars.length known = .ok R → (∀ e ∈ known, e ∈ N.edges) →
      (∀ n ∈ N.vars, ∃ q ∈ N.vars, q ≠ n ∧ (q, n) ∉ known) → ∀ a : SBArgs,
      a.optimizer = "tabu" → a.maxParents = none → (∀ k, a.tabuLength = some k → (N.vars.length : ℤ) - 1 ≤ k) →
      (∀ k, a.tabuDuration = some k → (N.vars.length : ℤ) - 1 ≤ |k|) → (∀ m, a.patience = some m → (N.vars.length : ℤ) - 1 ≤ m + 1) →
      (N.vars.length - 1) * 2 ^ (N.vars.length - 1) ≤ a.iterations →
      (∀ᶠ m : ℕ in atTop, Recovers N es τ α R a (pooledRows net C m K ω)) ∧ ∀ᶠ T : ℝ in atTop, Recovers N es τ α R a (pooledEnd net C T K ω) := by
  have hirr := irreducible_of_allPositive hOK hpos
  obtain ⟨π, hπ, -⟩ := sample_stationary hD hOK hc hirr
  have hmat : ∀ n ∈ N.vars, ∀ p ∈ N.parents n, ∀ K : List Label, (∀ q ∈ K, q ∈ N.vars) → p ∉ K → n ∉ K → StationaryMatters N N.inverseRates π n K p :=
    (fun n hn p hp K hK hpK hnK => tells_matters hD hOK hc hirr hπ hn hp (by rintro rfl; exact hns _ hn hp) (htell n hn p hp) hK hpK hnK)
  filter_upwards [many_strong hD hOK C hc hirr hπ hK] with ω ⟨h1, h2⟩ es τ α hτ hα R known hR hknown hcand a hopt hmp htl htd hpat hit
  exact ⟨likely_sure.1 (typical_network_recovered hD hOK h1.typical hcl hT hc hpos hc2 hcard hns hπ hmat es hτ hα hR hknown hcand hopt hmp htl htd hpat hit),
    likely_sure.1 (typical_network_recovered hD hOK h2.typical hcl hT hc hpos hc2 hcard hns hπ hmat es hτ hα hR hknown hcand hopt hmp htl htd hpat hit)⟩

/-- **C222** (constraint-based).  Almost surely, as `K` independent trajectories are continued and the levels shrink, constraint-based estimation returns exactly the edges of the network from
some moment on, and always after it; this holds at once for all shrinking levels, all thresholds and all prior knowledge of actual edges. -/
theorem network_always_found (hcl : NoSuffixClash N.vars) (hT : "Time" ∉ N.vars) (hc : N.Conservative) (hpos : N.AllPositive) {c : Nat} (hc2 : 2 ≤ c)
    (hcard : ∀ v ∈ N.vars, N.card v = c) (hns : ∀ v ∈ N.vars, v ∉ N.parents v) (htell : ∀ n ∈ N.vars, ∀ p ∈ N.parents n, Tells N p n) {K : Nat} (hK : 0 < K) :
    ∀ᵐ ω ∂manyLaw N.vars.length P, ∀ (es : List Edge) (A B : ℝ → ℝ), ShrinkingLevel A → ShrinkingLevel B → ∀ (thr : ℝ) (known : List Edge), (∀ e ∈ known, e ∈ N.edges) →
      (∀ᶠ m : ℕ in atTop, FindsEdges N es (scipyParams (A m) (B m) thr) known (pooledRows net C m K ω)) ∧
      ∀ᶠ T : ℝ in atTop, FindsEdges N es (scipyParams (A T) (B T) thr) known (pooledEnd net C T K ω) := by
  have hirr := irreducible_of_allPositive hOK hpos
  obtain ⟨π, hπ, -⟩ := sample_stationary hD hOK hc hirr
  have hmat : ∀ n ∈ N.vars, ∀ p ∈ N.parents n, ∀ K : List Label, (∀ q ∈ K, q ∈ N.vars) → p ∉ K → n ∉ K → StationaryMatters N N.inverseRates π n K p :=
    (fun n hn p hp K hK hpK hnK => tells_matters hD hOK hc hirr hπ hn hp (by rintro rfl; exact hns _ hn hp) (htell n hn p hp) hK hpK hnK)
  filter_upwards [many_strong hD hOK C hc hirr hπ hK] with ω ⟨h1, h2⟩ es A B hA hB thr known hknown
  have hQ := scipy_levels hA hB thr hc2
  exact ⟨likely_sure.1 (typical_edges_found hD hOK h1.typical hcl hT hc hpos hc2 hcard hns hπ hmat es hQ hknown),
    likely_sure.1 (typical_edges_found hD hOK h2.typical hcl hT hc hpos hc2 hcard hns hπ hmat es hQ hknown)⟩

/-- **C222** (hill climbing).  The same with hill climbing: almost surely, for every `ε > 0` there is a number of iterations with which, from some moment on, the search succeeds with
probability at least `1 - ε` over its own choices. -/
theorem hill_always_recovers (hcl : NoSuffixClash N.vars) (hT : "Time" ∉ N.vars) (hc : N.Conservative) (hpos : N.AllPositive) {c : Nat} (hc2 : 2 ≤ c)
    (hcard : ∀ v ∈ N.vars, N.card v = c) (hns : ∀ v ∈ N.vars, v ∉ N.parents v) (htell : ∀ n ∈ N.vars, ∀ p ∈ N.parents n, Tells N p n) {K : Nat} (hK : 0 < K) :
    ∀ᵐ ω ∂manyLaw N.vars.length P, ∀ ε > 0, ∀ (es : List Edge) (τ α : ℝ), 0 < τ → 0 < α → ∀ (R : List (List Bool)) (known : List Edge),
      buildRemovable (builtStruct N.vars (N.vars.map N.card) es) N.vars.length known = .ok R → (∀ e ∈ known, e ∈ N.edges) →
      (∀ n ∈ N.vars, ∃ q ∈ N.vars, q ≠ n ∧ (q, n) ∉ known) →
      ∃ T₀, ∀ a : SBArgs, SaneArgs a → a.optimizer ≠ "tabu" → a.maxParents = none → a.patience = none → T₀ ≤ a.iterations →
      ∀ {Ω : Type} [MeasurableSpace Ω] (Q : Measure Ω) [IsProbabilityMeasure Q] (X : Label → ℕ → Ω → ℕ),
      (∀ n ∈ N.vars, UniformChoices Q (openParents (builtStruct N.vars (N.vars.map N.card) es) known n).card (X n)) → ∀ drop : Ω → Label → ℕ → ℕ,
      (∀ᶠ m : ℕ in atTop, ProbablyRecovers N es τ α R a Q X drop ε (pooledRows net C m K ω)) ∧
      ∀ᶠ T : ℝ in atTop, ProbablyRecovers N es τ α R a Q X drop ε (pooledEnd net C T K ω) := by
  have hirr := irreducible_of_allPositive hOK hpos
  obtain ⟨π, hπ, -⟩ := sample_stationary hD hOK hc hirr
  have hmat : ∀ n ∈ N.vars, ∀ p ∈ N.parents n, ∀ K : List Label, (∀ q ∈ K, q ∈ N.vars) → p ∉ K → n ∉ K → StationaryMatters N N.inverseRates π n K p :=
    (fun n hn p hp K hK hpK hnK => tells_matters hD hOK hc hirr hπ hn hp (by rintro rfl; exact hns _ hn hp) (htell n hn p hp) hK hpK hnK)
  filter_upwards [many_strong hD hOK C hc hirr hπ hK] with ω ⟨h1, h2⟩ ε hε es τ α hτ hα R known hR hknown hcand
  obtain ⟨T₁, g1⟩ := typical_hill_recovered hD hOK h1.typical hε hcl hT hc hpos hc2 hcard hns hπ hmat es hτ hα hR hknown hcand
  obtain ⟨T₂, g2⟩ := typical_hill_recovered hD hOK h2.typical hε hcl hT hc hpos hc2 hcard hns hπ hmat es hτ hα hR hknown hcand
  exact ⟨max T₁ T₂, fun a a1 a2 a3 a4 a5 Ω _ Q _ X hX drop =>
    ⟨likely_sure.1 (g1 a a1 a2 a3 a4 (le_of_max_le_left a5) Q X hX drop), likely_sure.1 (g2 a a1 a2 a3 a4 (le_of_max_le_right a5) Q X hX drop)⟩⟩

omit hD hOK in
theorem rowsOfMoves_prefix (a b : List Move) : ∀ t vals, SampleNet.rowsOfMoves t vals a <+: SampleNet.rowsOfMoves t vals (a ++ b) := by
  induction a with
  | nil =>
    intro t vals
    obtain ⟨rs, h, -⟩ := rowsOfMoves_cons t vals b
    rw [List.nil_append, h, SampleNet.rowsOfMoves]
    exact ⟨rs, rfl⟩
  | cons m a ih =>
    intro t vals
    rw [List.cons_append, SampleNet.rowsOfMoves, SampleNet.rowsOfMoves]
    exact List.cons_prefix_cons.2 ⟨rfl, ih _ _⟩

/-- **C222** (one run).  On the same endless draws, what `CTBN_Sample` returns for a larger `max_tr` begins with all rows but the last that it returns for a smaller one - and so do the
rows for end times, which are the rows for some `max_tr` (`end_counts`). -/
theorem rows_continue (hpos : N.Leaves) : ∀ᵐ ω ∂drawLaw N.vars.length P, ∀ m n, m ≤ n → (sampledRows net C m ω).dropLast <+: sampledRows net C n ω := by
  filter_upwards [ae_all_iff.2 (fun n => sampled_moves_genuine hD hOK C hpos n)] with ω hgen m n hmn
  obtain ⟨ms, h1, -, -⟩ := hgen n
  unfold sampledRows SampleNet.sampleR
  rw [h1, movesR_take h1 hmn]
  change (SampleNet.terminate _).dropLast <+: SampleNet.terminate _
  have hd : ∀ rs : List (ℚ × List Nat), (SampleNet.terminate rs).dropLast = rs.dropLast.map castRow := by
    intro rs
    rcases List.eq_nil_or_concat rs with rfl | ⟨l, a, rfl⟩
    · rfl
    · rw [List.concat_eq_append]
      unfold SampleNet.terminate
      simp [castRow]
  rw [hd]
  have hp := rowsOfMoves_prefix (ms.take m) (ms.drop m) 0 (net.vnames.map (fun _ => 0))
  rw [List.take_append_drop] at hp
  refine List.IsPrefix.trans ?_ (List.dropLast_prefix _)
  rw [hd]
  refine List.IsPrefix.map _ ?_
  obtain ⟨l, hl⟩ := hp
  rw [← hl]
  rcases List.eq_nil_or_concat l with rfl | ⟨l', a, rfl⟩
  · rw [List.append_nil]
  · rw [List.concat_eq_append, ← List.append_assoc, List.dropLast_concat]
    exact (List.dropLast_prefix _).trans (List.prefix_append _ _)

end

/-! ## Non-vacuity -/

namespace Demo

/-- C222: along one endless run of draws for `X → Y`, the estimate of `Y`'s intensity of leaving 0 while `X` is in 1 converges to 2, the tabu search returns exactly the edge from
some moment on, and so does constraint-based estimation at the levels `1 / √T`. -/
example : ∀ᵐ ω ∂manyLaw 2 (Measure.infinitePi choiceLaw),
    Tendsto (fun m : ℕ => ((rawTransitions ["X", "Y"] (pooledRows pairNet someCategorical m 1 ω) "Y" ["X"] 0 1 [1] : ℝ) + 1)
      / ((rawResidence ["X", "Y"] (pooledRows pairNet someCategorical m 1 ω) "Y" ["X"] 0 [1] : ℝ) + 1)) atTop (𝓝 2) ∧
    (∀ᶠ m : ℕ in atTop, Recovers pairCtbn [] 1 1 [[true, true], [true, true]] defaultArgs (pooledRows pairNet someCategorical m 1 ω)) ∧
    ∀ᶠ T : ℝ in atTop, FindsEdges pairCtbn [] (scipyParams (1 / Real.sqrt T) (1 / Real.sqrt T) 5) [] (pooledEnd pairNet someCategorical T 1 ω) := by
  have hcl : NoSuffixClash pairCtbn.vars := by unfold NoSuffixClash; decide
  filter_upwards [estimates_converge pair_describes pair_ok someCategorical pair_conservative pair_irreducible one_pos,
    network_always_recovered pair_describes pair_ok someCategorical hcl (by decide) pair_conservative pair_allPositive (le_refl 2) (fun _ _ => rfl) (by decide) pair_parents_tell one_pos,
    network_always_found pair_describes pair_ok someCategorical hcl (by decide) pair_conservative pair_allPositive (le_refl 2) (fun _ _ => rfl) (by decide) pair_parents_tell one_pos]
    with ω h1 h2 h3
  refine ⟨?_, (h2 [] 1 1 one_pos one_pos [[true, true], [true, true]] [] rfl (by simp) (by decide) defaultArgs rfl rfl (by simp [defaultArgs]) (by simp [defaultArgs]) (by simp [defaultArgs])
    (by decide)).1, (h3 [] _ _ root_shrinks root_shrinks 5 [] (by simp)).2⟩
  have h := (h1 "Y" (by decide) ["X"] (by decide) (by decide) [1, 0] ⟨rfl, by decide⟩ 1 (by decide) (by decide)).1
  have e : pairCtbn.inverseAt "Y" (pairCtbn.parentStates [1, 0] "Y") (pairCtbn.state [1, 0] "Y") 1 = 2 := by
    unfold Ctbn.inverseAt
    have e1 : pairCtbn.intensityAt "Y" (pairCtbn.parentStates [1, 0] "Y") (pairCtbn.state [1, 0] "Y") 1 = 1 / 2 := by decide +kernel
    have e2 : pairCtbn.exitAt "Y" (pairCtbn.parentStates [1, 0] "Y") (pairCtbn.state [1, 0] "Y") = 1 / 2 := by decide +kernel
    rw [e1, e2]; norm_num
  rw [e] at h
  exact h

end Demo

end

end PyCTBN
