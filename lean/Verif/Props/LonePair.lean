import Verif.Props.StampRounding

/-!
C212: pooling trajectories with the same `max_tr` does not reveal the network.  Two variables that do not depend on each other, all of whose intensities are 1.
-/

noncomputable section

namespace PyCTBN

open MeasureTheory ProbabilityTheory Filter Topology
open Spec JumpPaths

namespace Demo

theorem lone_describes : Describes loneNet loneCtbn where
  vnames := rfl
  parents := by decide
  cims := by
    intro v hv
    simp only [loneCtbn, List.mem_cons, List.not_mem_nil, or_false] at hv
    have key : ∀ l, Stores [] (fun _ => pairCim 0) { pX with nodeId := l } := by
      intro l
      refine ⟨rfl, pX_stores.nodup, pX_stores.mem, ?_, by intro h; simp at h⟩
      intro k u m h1 h2
      have hk : k < 1 := by have := (List.getElem?_eq_some_iff.1 h2).1; simpa [pX] using this
      have : k = 0 := by omega
      subst this
      simp only [pX, List.getElem?_cons_zero, Option.some.injEq] at h1 h2
      rw [← h2]; rfl
    rcases hv with rfl | rfl
    · exact ⟨pX, rfl, key "X"⟩
    · exact ⟨{ pX with nodeId := "Y" }, rfl, key "Y"⟩

theorem lone_inRange {vals : List Nat} (hr : loneCtbn.InRange vals) : ∃ x < 2, ∃ y < 2, vals = [x, y] := by
  obtain ⟨h1, h2⟩ := hr
  obtain ⟨x, y, rfl⟩ : ∃ x y, vals = [x, y] := by
    match vals, h1 with
    | [x, y], _ => exact ⟨x, y, rfl⟩
  exact ⟨x, h2 "X" (by decide), y, h2 "Y" (by decide), rfl⟩

theorem lone_conservative : loneCtbn.Conservative := by
  intro vals hr v hv
  obtain ⟨x, hx, y, hy, rfl⟩ := lone_inRange hr
  rw [← weights_sum]
  have hall : ∀ x < 2, ∀ y < 2, ∀ v ∈ ["X", "Y"], loneCtbn.exitRate [x, y] v = (loneCtbn.weights [x, y] v).sum := by decide +kernel
  rw [hall x hx y hy v hv]

theorem lone_rate {x y : Nat} (hx : x < 2) (hy : y < 2) {v : Label} (hv : v ∈ ["X", "Y"]) {z : Nat} (hz : z < 2) :
    loneCtbn.inverseRates [x, y] v z = if z = loneCtbn.state [x, y] v then 0 else 1 := by
  have hr : loneCtbn.InRange [x, y] := ⟨rfl, fun w hw => by
    have : ∀ x < 2, ∀ y < 2, ∀ w ∈ ["X", "Y"], loneCtbn.state [x, y] w < 2 := by decide
    exact this x hx y hy w hw⟩
  unfold Ctbn.inverseRates Ctbn.rates
  split_ifs with h
  · simp
  · rw [← lone_conservative _ hr v hv]
    have hall : ∀ x < 2, ∀ y < 2, ∀ v ∈ ["X", "Y"], ∀ z < 2, z ≠ loneCtbn.state [x, y] v →
      loneCtbn.intensity [x, y] v z = 1 ∧ loneCtbn.exitRate [x, y] v = 1 := by decide +kernel
    obtain ⟨h1, h2⟩ := hall x hx y hy v hv z hz h
    rw [h1, h2]; norm_num

theorem lone_rateX {x y z : Nat} (hx : x < 2) (hy : y < 2) (hz : z < 2) : loneCtbn.inverseRates [x, y] "X" z = if z = x then 0 else 1 := by
  rw [lone_rate hx hy (by decide) hz, show loneCtbn.state [x, y] "X" = x from rfl]

theorem lone_rateY {x y z : Nat} (hx : x < 2) (hy : y < 2) (hz : z < 2) : loneCtbn.inverseRates [x, y] "Y" z = if z = y then 0 else 1 := by
  rw [lone_rate hx hy (by decide) hz, show loneCtbn.state [x, y] "Y" = y from rfl]

theorem lone_total {x y : Nat} (hx : x < 2) (hy : y < 2) : totalRate loneCtbn loneCtbn.inverseRates [x, y] = 2 := by
  have e : totalRate loneCtbn loneCtbn.inverseRates [x, y] = (loneCtbn.inverseRates [x, y] "X" 0 + (loneCtbn.inverseRates [x, y] "X" 1 + 0))
      + ((loneCtbn.inverseRates [x, y] "Y" 0 + (loneCtbn.inverseRates [x, y] "Y" 1 + 0)) + 0) := rfl
  rw [e]
  simp only [lone_rateX hx hy (by norm_num : 0 < 2), lone_rateX hx hy (by norm_num : 1 < 2),
    lone_rateY hx hy (by norm_num : 0 < 2), lone_rateY hx hy (by norm_num : 1 < 2)]
  have : x = 0 ∨ x = 1 := by omega
  have : y = 0 ∨ y = 1 := by omega
  rcases ‹x = 0 ∨ x = 1› with rfl | rfl <;> rcases ‹y = 0 ∨ y = 1› with rfl | rfl <;> norm_num

/-- The mean time spent in a joint state in `n` moves, from a state that differs from it in `d` variables. -/
def loneTime : ℕ → ℕ → ℝ
  | 0, _ => 0
  | n + 1, 0 => 1 / 2 + loneTime n 1
  | n + 1, 1 => (loneTime n 0 + loneTime n 2) / 2
  | n + 1, _ => loneTime n 1

theorem loneTime_closed (j : ℕ) : (loneTime (2 * j + 1) 0 = (j + 2) / 4 ∧ loneTime (2 * j + 1) 1 = j / 4 ∧ loneTime (2 * j + 1) 2 = j / 4) ∧
    loneTime (2 * j + 2) 0 = (j + 2) / 4 ∧ loneTime (2 * j + 2) 1 = (j + 1) / 4 ∧ loneTime (2 * j + 2) 2 = j / 4 := by
  have step : ∀ n, loneTime (n + 1) 0 = 1 / 2 + loneTime n 1 ∧ loneTime (n + 1) 1 = (loneTime n 0 + loneTime n 2) / 2 ∧ loneTime (n + 1) 2 = loneTime n 1 :=
    fun n => ⟨rfl, rfl, rfl⟩
  induction j with
  | zero =>
    obtain ⟨a, b, c⟩ := step 0
    obtain ⟨d, e, f⟩ := step 1
    simp only [loneTime] at a b c d e f ⊢
    norm_num
  | succ j ih =>
    obtain ⟨-, h0, h1, h2⟩ := ih
    obtain ⟨a, b, c⟩ := step (2 * j + 2)
    obtain ⟨d, e, f⟩ := step (2 * j + 3)
    rw [show 2 * (j + 1) + 1 = 2 * j + 2 + 1 by ring, show 2 * (j + 1) + 2 = 2 * j + 3 + 1 by ring, d, e, f, show 2 * j + 3 = 2 * j + 2 + 1 by ring, a, b, c, h0, h1, h2]
    push_cast
    refine ⟨⟨?_, ?_, ?_⟩, ?_, ?_, ?_⟩ <;> ring

theorem lone_step (w : List Nat → ℝ) (n : Nat) {x y : Nat} (hx : x < 2) (hy : y < 2) :
    meanTotal loneCtbn loneCtbn.inverseRates (fun vals _ _ a => 0 + w vals * a) (n + 1) [x, y] 0
      = w [x, y] / 2 + (meanTotal loneCtbn loneCtbn.inverseRates (fun vals _ _ a => 0 + w vals * a) n [1 - x, y] 0
        + meanTotal loneCtbn loneCtbn.inverseRates (fun vals _ _ a => 0 + w vals * a) n [x, 1 - y] 0) / 2 := by
  have hU := usable_inverse lone_describes lone_ok (leaves_of_conservative lone_describes lone_ok lone_conservative)
  have hr : loneCtbn.InRange [x, y] := by
    have : x = 0 ∨ x = 1 := by omega
    have : y = 0 ∨ y = 1 := by omega
    rcases ‹x = 0 ∨ x = 1› with rfl | rfl <;> rcases ‹y = 0 ∨ y = 1› with rfl | rfl <;> exact ⟨rfl, by decide⟩
  rw [(meanTime_succ lone_ok hU _ n).2 hr, lone_total hx hy]
  have hs : JumpPaths.steps loneCtbn = {⟨0, 0⟩, ⟨0, 1⟩, ⟨1, 0⟩, ⟨1, 1⟩} := by decide
  rw [hs, Finset.sum_insert (by decide), Finset.sum_insert (by decide), Finset.sum_insert (by decide), Finset.sum_singleton]
  have e0 : loneCtbn.vars.getD 0 "" = "X" := rfl
  have e1 : loneCtbn.vars.getD 1 "" = "Y" := rfl
  simp only [stepProb, lone_total hx hy, e0, e1, lone_rateX hx hy (by norm_num : 0 < 2), lone_rateX hx hy (by norm_num : 1 < 2),
    lone_rateY hx hy (by norm_num : 0 < 2), lone_rateY hx hy (by norm_num : 1 < 2), after, List.set_cons_zero, List.set_cons_succ]
  have : x = 0 ∨ x = 1 := by omega
  have : y = 0 ∨ y = 1 := by omega
  rcases ‹x = 0 ∨ x = 1› with rfl | rfl <;> rcases ‹y = 0 ∨ y = 1› with rfl | rfl <;> simp <;> ring

theorem loneTime_step (n : Nat) {a b x y : Nat} (ha : a < 2) (hb : b < 2) (hx : x < 2) (hy : y < 2) :
    loneTime (n + 1) ((if x = a then 0 else 1) + if y = b then 0 else 1) = (if x = a ∧ y = b then 1 else 0) / 2
      + (loneTime n ((if 1 - x = a then 0 else 1) + if y = b then 0 else 1) + loneTime n ((if x = a then 0 else 1) + if 1 - y = b then 0 else 1)) / 2 := by
  have : x = 0 ∨ x = 1 := by omega
  have : y = 0 ∨ y = 1 := by omega
  have : a = 0 ∨ a = 1 := by omega
  have : b = 0 ∨ b = 1 := by omega
  rcases ‹x = 0 ∨ x = 1› with rfl | rfl <;> rcases ‹y = 0 ∨ y = 1› with rfl | rfl <;> rcases ‹a = 0 ∨ a = 1› with rfl | rfl <;> rcases ‹b = 0 ∨ b = 1› with rfl | rfl <;>
    simp [loneTime] <;> ring

theorem lone_time (w : List Nat → ℝ) {a b : Nat} (ha : a < 2) (hb : b < 2) (hw : ∀ x < 2, ∀ y < 2, w [x, y] = if x = a ∧ y = b then 1 else 0) (n : Nat) :
    ∀ x < 2, ∀ y < 2, meanTotal loneCtbn loneCtbn.inverseRates (fun vals _ _ a => 0 + w vals * a) n [x, y] 0
      = loneTime n ((if x = a then 0 else 1) + if y = b then 0 else 1) := by
  induction n with
  | zero => intro x _ y _; rw [meanTotal_zero]; rfl
  | succ n ih =>
    intro x hx y hy
    rw [lone_step w n hx hy, loneTime_step n ha hb hx hy, hw x hx y hy, ih (1 - x) (by omega) y hy, ih x hx (1 - y) (by omega)]

theorem lone_time_ge (w : List Nat → ℝ) {a b : Nat} (ha : a < 2) (hb : b < 2) (hw : ∀ x < 2, ∀ y < 2, (if x = a ∧ y = b then 1 else 0) ≤ w [x, y]) (n : Nat) :
    ∀ x < 2, ∀ y < 2, loneTime n ((if x = a then 0 else 1) + if y = b then 0 else 1)
      ≤ meanTotal loneCtbn loneCtbn.inverseRates (fun vals _ _ a => 0 + w vals * a) n [x, y] 0 := by
  induction n with
  | zero => intro x _ y _; rw [meanTotal_zero]; exact le_rfl
  | succ n ih =>
    intro x hx y hy
    rw [lone_step w n hx hy, loneTime_step n ha hb hx hy]
    have h1 := hw x hx y hy
    have h2 := ih (1 - x) (by omega) y hy
    have h3 := ih x hx (1 - y) (by omega)
    linarith

theorem loneTime_pos {n : Nat} (hn : 3 ≤ n) {d : Nat} (hd : d ≤ 2) : 0 < loneTime n d := by
  obtain ⟨j, rfl | rfl⟩ : ∃ j, n = 2 * (j + 1) + 1 ∨ n = 2 * (j + 1) + 2 := ⟨(n - 1) / 2 - 1, by omega⟩
  all_goals
    obtain ⟨⟨q0, q1, q2⟩, r0, r1, r2⟩ := loneTime_closed (j + 1)
    have : d = 0 ∨ d = 1 ∨ d = 2 := by omega
    rcases this with rfl | rfl | rfl <;> simp only [q0, q1, q2, r0, r1, r2] <;> positivity

section
variable {U : Type} [MeasurableSpace U] {P : Measure U} [IsProbabilityMeasure P] (C : Categorical U P)

theorem lone_spent {v p : Label} (hvp : (v = "X" ∧ p = "Y") ∨ (v = "Y" ∧ p = "X")) {z : Nat} (hz : z < 2) (n : Nat) :
    ∫ ω, circumstanceTime loneCtbn v [p] 0 [z] (loneCtbn.vars.map (fun _ => 0)) (sampledMoves (m := loneCtbn.vars.length) loneNet C n ω) ∂drawLaw loneCtbn.vars.length P
      = loneTime n (if z = 0 then 0 else 1) := by
  have hpos := leaves_of_conservative lone_describes lone_ok lone_conservative
  have hU := usable_inverse lone_describes lone_ok hpos
  obtain ⟨A, hA⟩ := tame_simple lone_ok hU (fun _ _ => 0) (caseInd loneCtbn v [p] 0 [z])
  have h := (sampled_total_mean lone_describes lone_ok C hpos hA n).2
  rw [integral_congr_ae (.of_forall (fun ω => circumstanceTime_eq loneCtbn v [p] 0 [z] _ _ 0))]
  refine h.trans ?_
  have e0 : loneCtbn.vars.map (fun _ => 0) = [0, 0] := rfl
  rw [e0]
  have : z = 0 ∨ z = 1 := by omega
  rcases hvp with ⟨rfl, rfl⟩ | ⟨rfl, rfl⟩
  · rw [lone_time _ (a := 0) (b := z) (by norm_num) hz (fun x hx y hy => ?_) n 0 (by norm_num) 0 (by norm_num)]
    · rcases this with rfl | rfl <;> simp
    · unfold caseInd
      have h : ∀ x < 2, ∀ y < 2, ∀ z < 2, Circumstances loneCtbn "X" ["Y"] 0 [z] [x, y] ↔ x = 0 ∧ y = z := by decide
      simp only [h x hx y hy z hz]
  · rw [lone_time _ (a := z) (b := 0) hz (by norm_num) (fun x hx y hy => ?_) n 0 (by norm_num) 0 (by norm_num)]
    · rcases this with rfl | rfl <;> simp
    · unfold caseInd
      have h : ∀ x < 2, ∀ y < 2, ∀ z < 2, Circumstances loneCtbn "Y" ["X"] 0 [z] [x, y] ↔ x = z ∧ y = 0 := by decide
      simp only [h x hx y hy z hz]

omit [IsProbabilityMeasure P] in
theorem lone_inverseAt (v : Label) (u : List Nat) {x y : Nat} (hx : x < 2) (hy : y < 2) (hyx : y ≠ x) : loneCtbn.inverseAt v u x y = 1 := by
  have h : ∀ x < 2, ∀ y < 2, y ≠ x → loneCtbn.intensityAt v u x y = 1 ∧ loneCtbn.exitAt v u x = 1 := by
    unfold Ctbn.intensityAt Ctbn.exitAt
    show ∀ x < 2, ∀ y < 2, y ≠ x → cell (pairCim 0) x y = 1 ∧ -cell (pairCim 0) x x = 1
    decide +kernel
  obtain ⟨h1, h2⟩ := h x hx y hy hyx
  unfold Ctbn.inverseAt
  rw [h1, h2]; norm_num

theorem lone_pooledMatters {v p : Label} (hvp : (v = "X" ∧ p = "Y") ∨ (v = "Y" ∧ p = "X")) {m : Nat} (hm : 2 ≤ m) {K : List Label} (hK : K = []) :
    PooledMatters loneNet loneCtbn C m v K p := by
  subst hK
  have hv : v ∈ loneCtbn.vars := by rcases hvp with ⟨rfl, -⟩ | ⟨rfl, -⟩ <;> decide
  have hp : ∀ q ∈ [p], q ∈ loneCtbn.vars := by rcases hvp with ⟨-, rfl⟩ | ⟨-, rfl⟩ <;> decide
  have hstay : ∀ m, ∀ z < 2, |meanStay loneNet loneCtbn C m v [p] 0 [z] - loneTime m (if z = 0 then 0 else 1)| ≤ 4 / 10 ^ 8 := by
    intro m z hz
    have h := stamp_rounding_bounded lone_describes lone_ok C lone_conservative (Λ := 2) (fun vals hr => by
      obtain ⟨x, hx, y, hy, rfl⟩ := lone_inRange hr
      rw [lone_total hx hy]) (by norm_num) hv hp 0 [z] m
    rw [lone_spent C hvp hz] at h
    exact h.trans (by norm_num)
  have hmove : ∀ n, ∀ z < 2, meanMoves loneNet loneCtbn C (n + 1) v [p] 0 1 [z] = loneTime n (if z = 0 then 0 else 1) := by
    intro n z hz
    have h := (rows_transitions_mean lone_describes lone_ok C lone_conservative hv hp (fun q hq => by simp [loneCtbn] at hq) (x := 0) (y := 1) (by norm_num) (by norm_num [loneCtbn]) [z] n).2
    rw [lone_spent C hvp hz] at h
    have e := lone_inverseAt v (loneCtbn.parentPart v [p] [z]) (x := 0) (y := 1) (by norm_num) (by norm_num) (by norm_num)
    rw [e, one_mul] at h
    exact h
  obtain ⟨n, rfl⟩ : ∃ n, m = n + 2 := ⟨m - 2, by omega⟩
  have s0 := abs_le.1 (hstay (n + 2) 0 (by norm_num))
  have s1 := abs_le.1 (hstay (n + 2) 1 (by norm_num))
  have m0 := hmove (n + 1) 0 (by norm_num)
  have m1 := hmove (n + 1) 1 (by norm_num)
  simp only [if_true, one_ne_zero, if_false] at s0 s1 m0 m1
  have key : 0 < meanStay loneNet loneCtbn C (n + 2) v [p] 0 [0] ∧ 0 < meanStay loneNet loneCtbn C (n + 2) v [p] 0 [1] ∧
      meanMoves loneNet loneCtbn C (n + 2) v [p] 0 1 [0] * meanStay loneNet loneCtbn C (n + 2) v [p] 0 [1]
        ≠ meanMoves loneNet loneCtbn C (n + 2) v [p] 0 1 [1] * meanStay loneNet loneCtbn C (n + 2) v [p] 0 [0] := by
    rw [m0, m1]
    generalize meanStay loneNet loneCtbn C (n + 2) v [p] 0 [0] = a at *
    generalize meanStay loneNet loneCtbn C (n + 2) v [p] 0 [1] = b at *
    clear hstay hmove m0 m1
    obtain ⟨j, rfl | rfl⟩ : ∃ j, n = 2 * j ∨ n = 2 * j + 1 := ⟨n / 2, by omega⟩
    · obtain ⟨⟨q0, q1, -⟩, r0, r1, -⟩ := loneTime_closed j
      rw [r0] at s0; rw [r1] at s1; rw [q0, q1]
      have hj : (0 : ℝ) ≤ j := Nat.cast_nonneg j
      refine ⟨by linarith, by linarith, ne_of_gt ?_⟩
      nlinarith [mul_nonneg hj hj, mul_le_mul_of_nonneg_left s1.1 (by positivity : (0 : ℝ) ≤ j + 2), mul_le_mul_of_nonneg_left s0.2 hj]
    · obtain ⟨-, q0, q1, -⟩ := loneTime_closed j
      obtain ⟨⟨r0, r1, -⟩, -⟩ := loneTime_closed (j + 1)
      rw [show 2 * j + 1 + 2 = 2 * (j + 1) + 1 by ring] at s0 s1
      rw [r0] at s0; rw [r1] at s1; rw [show 2 * j + 1 + 1 = 2 * j + 2 by ring, q0, q1]
      push_cast at s0 s1
      have hj : (0 : ℝ) ≤ j := Nat.cast_nonneg j
      refine ⟨by linarith, by linarith, ne_of_lt ?_⟩
      nlinarith [mul_nonneg hj hj, mul_le_mul_of_nonneg_left s1.2 (by positivity : (0 : ℝ) ≤ j + 2), mul_le_mul_of_nonneg_left s0.1 (by positivity : (0 : ℝ) ≤ j + 1)]
  obtain ⟨k0, k1, k2⟩ := key
  refine ⟨fun _ => 0, fun _ _ => by norm_num [loneCtbn], 0, 1, 0, 1, by norm_num [loneCtbn], by norm_num [loneCtbn], by norm_num, by norm_num [loneCtbn], by norm_num [loneCtbn], k0, k1, ?_⟩
  intro h
  apply k2
  simp only [List.map_nil] at h
  rw [div_eq_div_iff k0.ne' k1.ne'] at h
  exact h

/-- **C212** More trajectories do not help.  `X` and `Y` have two states each, no edges between them and intensities 1.  Whatever `max_tr = m ≥ 2` is used, almost surely, once the number `k` of
trajectories sampled independently is large enough, importing them works and the network that default score-based estimation returns has the two edges between `X` and `Y`. -/
theorem pooling_adds_edges {m : Nat} (hm : 2 ≤ m) {τ α : ℝ} (hτ : 0 < τ) (hα : 0 < α) :
    Describes loneNet loneCtbn ∧ loneCtbn.edges = ∅ ∧
    ∀ᵐ ω ∂manyLaw loneCtbn.vars.length P, ∃ k₀, ∀ k, k₀ ≤ k → ∃ (sp : SamplePath) (s : Structure) (t : Trajectory),
      buildFromRaw ((pooledRows loneNet C m k ω).map (SampleNet.frame ["X", "Y"])) ⟨[0, 1], ["X", "Y"], [2, 2]⟩ [] = .ok sp ∧
      sp.struct = some s ∧ sp.trajectories = some t ∧ ∀ pick drop, ∃ rep e',
        estimateStructure (famScoreOn t τ α) [[true, true], [true, true]] (Estimator.new s) defaultArgs none pick drop = (.ok ({("X", "Y"), ("Y", "X")}, rep), e') := by
  refine ⟨lone_describes, by decide, ?_⟩
  have hpos := leaves_of_conservative lone_describes lone_ok lone_conservative
  have hK : ∀ {v p : Label}, (v = "X" ∧ p = "Y") ∨ (v = "Y" ∧ p = "X") → ∀ K : List Label, (∀ q ∈ K, q ∈ loneCtbn.vars) → p ∉ K → v ∉ K → K = [] := by
    intro v p hvp K h hp hv
    refine List.eq_nil_iff_forall_not_mem.2 (fun q hq => ?_)
    have := h q hq
    simp only [loneCtbn, List.mem_cons, List.not_mem_nil, or_false] at this
    rcases hvp with ⟨rfl, rfl⟩ | ⟨rfl, rfl⟩ <;> rcases this with rfl | rfl <;> contradiction
  have found : ∀ {v p : Label}, (v = "X" ∧ p = "Y") ∨ (v = "Y" ∧ p = "X") → _ := fun {v p} hvp =>
    pooled_edges_found lone_describes lone_ok C (by unfold NoSuffixClash; decide) (by decide) lone_conservative (le_refl 2) (fun _ _ => rfl) (m := m) (by omega) (n := v) (p := p)
      (by rcases hvp with ⟨rfl, -⟩ | ⟨rfl, -⟩ <;> decide) (by rcases hvp with ⟨-, rfl⟩ | ⟨-, rfl⟩ <;> decide) (by rcases hvp with ⟨rfl, rfl⟩ | ⟨rfl, rfl⟩ <;> decide)
      (fun K h1 h2 h3 => lone_pooledMatters C hvp hm (hK hvp K h1 h2 h3)) [] hτ hα (R := [[true, true], [true, true]]) (known := []) rfl (by simp) (by simp) (a := defaultArgs)
      rfl rfl (by simp [defaultArgs]) (by simp [defaultArgs]) (by simp [defaultArgs]) (by decide)
  filter_upwards [found (Or.inl ⟨rfl, rfl⟩), found (Or.inr ⟨rfl, rfl⟩), many_ae (sampled_rows_usable lone_describes lone_ok C hpos (by omega : 1 ≤ m))] with ω h1 h2 huse
  obtain ⟨k₁, h1⟩ := h1
  obtain ⟨k₂, h2⟩ := h2
  refine ⟨max (max k₁ k₂) 1, fun k hk => ?_⟩
  obtain ⟨p, s, t, a1, a2, a3, a4⟩ := h1 k ((le_max_left _ _).trans ((le_max_left _ _).trans hk))
  obtain ⟨p', s', t', b1, b2, b3, b4⟩ := h2 k ((le_max_right _ _).trans ((le_max_left _ _).trans hk))
  rw [a1, Except.ok.injEq] at b1
  subst b1
  rw [a2, Option.some.injEq] at b2
  rw [a3, Option.some.injEq] at b3
  subst b2 b3
  refine ⟨p, s, t, a1, a2, a3, fun pick drop => ?_⟩
  have hk1 : 1 ≤ k := (le_max_right _ _).trans hk
  obtain ⟨⟨p', p1, p2, p3⟩, hdata, -⟩ := usable_builds lone_ok (by unfold NoSuffixClash; decide) (by decide) (c := 2) (fun _ _ => rfl) (raws := pooledRows loneNet C m k ω)
    ⟨by unfold pooledRows; simp; omega, fun r hr => by obtain ⟨i, -, rfl⟩ := List.mem_map.1 hr; exact huse i⟩ []
  rw [p1, Except.ok.injEq] at a1
  subst a1
  rw [p2, Option.some.injEq] at a2
  rw [p3, Option.some.injEq] at a3
  subst a2 a3
  obtain ⟨es, rep, e', hr, -⟩ := score_based_returns_partial (a := defaultArgs) (order := none) (known := []) hdata (le_refl 2) hτ hα
    (R := [[true, true], [true, true]]) ⟨rfl, rfl, by simp⟩ ⟨by simp [defaultArgs], by simp [defaultArgs], by simp [defaultArgs]⟩ (candidates_built (by decide) _ _ _ _) _ (by simp) pick drop
  have m1 := a4 _ none pick drop es rep e' (by simp) hr
  have m2 := b4 _ none pick drop es rep e' (by simp) hr
  have he : es = {("X", "Y"), ("Y", "X")} := by
    ext q
    simp only [Finset.mem_insert, Finset.mem_singleton]
    constructor
    · intro hq
      have := (estimate_well_formed (known := []) ⟨hdata.wf.1, hdata.wf.2, hdata.wf.3⟩ ⟨rfl, rfl, by simp⟩ (by simp) hr).1 _ hq
      have hl1 : q.1 ∈ (["X", "Y"] : List Label) := this.1
      have hl2 : q.2 ∈ (["X", "Y"] : List Label) := this.2.1
      have hne := this.2.2
      obtain ⟨a, b⟩ := q
      simp only [List.mem_cons, List.not_mem_nil, or_false] at hl1 hl2
      rcases hl1 with rfl | rfl <;> rcases hl2 with rfl | rfl <;> simp at hne ⊢
    · rintro (rfl | rfl)
      · exact m2
      · exact m1
  rw [← he]
  exact ⟨rep, e', hr⟩

end

end Demo

end PyCTBN
