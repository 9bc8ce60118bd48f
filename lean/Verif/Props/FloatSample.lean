import Verif.Lemmas.FloatSample
import Verif.Props.SampleDemo

/-!
# Sampling in floating point: C173, C174
-/

namespace PyCTBN
open Spec

section
variable {u : ℚ} {rnd : ℚ → ℚ} {net : SampleNet} {N : Ctbn} {tEnd : ℚ} {maxTr : ℤ} {draws : SampleDrawsF}

/-- **C173.**  `CTBN_Sample` in floating point: the last row is all -1; the rows before it are joint states within the cardinalities, the first of them all zeros; from each to the
next one variable moves — to a state of positive intensity or, if it has three or more states, possibly to its last state regardless. -/
theorem float_sample_shape (h0 : 0 ≤ u) (h1 : u < 1) (hF : FloatRounding u rnd) (hN : FloatNet u rnd N) (hD : Describes net N) (hOK : N.OK)
    {rows : RawTraj} (h : SamplesF rnd net tEnd maxTr draws rows) :
    ∃ (before : List (ℚ × List Nat)) (t : ℚ),
      rows = before.map (fun r => (r.1, r.2.map (fun x : Nat => (x : ℤ)))) ++ [(t, N.vars.map (fun _ => (-1 : ℤ)))] ∧
      (∀ r ∈ before, N.InRange r.2) ∧ (∀ r, before[0]? = some r → r = (0, N.vars.map (fun _ => 0))) ∧
      ∀ (n : Nat) (a b : ℚ × List Nat), before[n]? = some a → before[n + 1]? = some b → Genuine N a.2 b.2 ∨ Phantom N a.2 b.2 := by
  obtain ⟨s, hv, hs⟩ := samplesF_visits h
  have hg := goodF_of_visits h0 h1 hF hN hD hOK hv
  obtain ⟨cur, c1, c2, c3⟩ := hg.last
  rw [doneF_rows h0 h1 hF hN hD hOK hv hs]
  have hle : ∀ (n : Nat) r, s.rows.dropLast[n]? = some r → s.rows[n]? = some r := by
    intro n r hr
    rw [List.getElem?_dropLast] at hr
    split at hr
    · exact hr
    · cases hr
  refine ⟨s.rows.dropLast, cur.1, ?_, fun r hr => hg.inRange r (List.dropLast_subset _ hr), ?_, ?_⟩
  · unfold SampleNet.terminate
    rw [c1]
    simp only [Option.toList_some, List.map_cons, List.map_nil]
    have : cur.2.map (fun _ => (-1 : ℤ)) = N.vars.map (fun _ => (-1 : ℤ)) := by
      rw [List.map_const', List.map_const', c3.1]
    rw [this]
  · intro r hr
    have := hle 0 r hr
    rw [hg.first] at this
    exact (Option.some.inj this).symm
  · intro n a b ha hb
    exact hg.moves n a b (hle _ _ ha) (hle _ _ hb)

/-- **C173.**  The times of a trajectory sampled in floating point start with 0 and never decrease; with an end time they are never beyond it (rounded like the times). -/
theorem float_sample_times (h0 : 0 ≤ u) (h1 : u < 1) (hF : FloatRounding u rnd) (hN : FloatNet u rnd N) (hD : Describes net N) (hOK : N.OK)
    (hexp : ∀ n i, 0 ≤ draws.exp n i) {rows : RawTraj} (h : SamplesF rnd net tEnd maxTr draws rows) :
    (rows.map Prod.fst)[0]? = some 0 ∧ (rows.map Prod.fst).Pairwise (· ≤ ·) ∧
      (0 ≤ tEnd → ∀ r ∈ rows, r.1 ≤ round4F rnd tEnd) := by
  obtain ⟨s, hv, hs⟩ := samplesF_visits h
  have hg := goodF_of_visits h0 h1 hF hN hD hOK hv
  have ht := timesF_of_visits h0 h1 hF hN hD hOK hexp hv
  rw [doneF_rows h0 h1 hF hN hD hOK hv hs, terminate_times]
  refine ⟨by rw [List.getElem?_map, hg.first]; rfl, ht.sorted, ?_⟩
  intro hte r hr
  have hr' : r.1 ∈ s.rows.map Prod.fst := by rw [← terminate_times]; exact List.mem_map_of_mem hr
  refine le_trans ?_ (round4F_mono h0 h1 hF ht.nonneg (ht.bound (by linarith) hte))
  obtain ⟨l, hl'⟩ := List.getLast?_eq_some_iff.1 ht.last
  have hs := ht.sorted
  rw [hl'] at hs hr'
  rcases List.mem_append.1 hr' with ha | ha
  · exact (List.pairwise_append.1 hs).2.2 _ ha _ (by simp)
  · rw [List.mem_singleton] at ha; exact le_of_eq ha

/-- **C173.**  With a limit of `m` transitions the sampler in floating point always returns, with at most `m + 1` rows, and exactly that many without an end time; with no limit it never returns. -/
theorem float_sample_returns (h0 : 0 ≤ u) (h1 : u < 1) (hF : FloatRounding u rnd) (hN : FloatNet u rnd N) (hD : Describes net N) (hOK : N.OK)
    (draws : SampleDrawsF) :
    (∀ (tEnd : ℚ) (m : Nat), ∃ rows, SamplesF rnd net tEnd m draws rows ∧ rows.length ≤ m + 1 ∧ (tEnd = -1 → rows.length = m + 1)) ∧
    ∀ m : ℤ, m < 0 → ∀ fuel, net.sampleF rnd (-1) m draws fuel = .error .outOfFuel := by
  constructor
  · intro tEnd m
    obtain ⟨rows, h1, h2⟩ := runF_returns h0 h1 hF hN hD hOK tEnd m draws (m + 1) net.initState (goodF_init hD hOK) (by simp [SampleNet.initState])
      (by simp [SampleNet.initState])
    exact ⟨rows, ⟨m + 1, h1⟩, h2⟩
  · intro m hm fuel
    have : ∀ (fuel : Nat) (s : SampleState), GoodStateF N s → net.runF rnd (-1) m draws fuel s = .error .outOfFuel := by
      intro fuel
      induction fuel with
      | zero => intro s _; rfl
      | succ fuel ih =>
        intro s hg
        rw [SampleNet.runF]
        rcases stepF_returns h0 h1 hF hN hD hOK (-1) m draws hg with ⟨t, hst, e⟩ | ⟨s', t, hst, e, hn⟩
        · unfold SampleNet.stops at hst
          simp only [ne_eq, not_true_eq_false, decide_false, Bool.false_and, Bool.or_false, Bool.and_eq_true, decide_eq_true_eq] at hst
          omega
        · rw [e]
          exact ih s' (goodF_step h0 h1 hF hN hD hOK hg e)
    exact this fuel _ (goodF_init hD hOK)

end

/-- **C173.**  In `float64` the assumptions are that the matrices hold floats and that no variable has more than 4000 states. -/
theorem float64_sample_assumptions {N : Ctbn} (hfl : ∀ v ∈ N.vars, ∀ us, InRangeAssign (N.parentCards v) us → ∀ r ∈ N.cim v us, ∀ x ∈ r, binRound 53 x = x)
    (hcard : ∀ v ∈ N.vars, N.card v ≤ 4000) :
    FloatRounding (1 / 2 ^ 53) (binRound 53) ∧ FloatNet (1 / 2 ^ 53) (binRound 53) N := by
  refine ⟨binRound_floatRounding 53 (by norm_num), hfl, ?_⟩
  intro v hv
  have hb : (1 : ℚ) + 9 / 10 ^ 13 ≤ binRound 53 (1 + binRound 53 (1 / 10 ^ 12)) := by decide +kernel
  have hpow : (1 : ℚ) - 8002 * (1 / 2 ^ 53) ≤ (1 - 1 / 2 ^ 53) ^ 8002 := by
    have := one_add_mul_le_pow (a := -(1 / 2 ^ 53 : ℚ)) (by norm_num) 8002
    calc (1 : ℚ) - 8002 * (1 / 2 ^ 53) = 1 + ((8002 : ℕ) : ℚ) * -(1 / 2 ^ 53) := by norm_num
      _ ≤ (1 + -(1 / 2 ^ 53)) ^ 8002 := this
      _ = _ := by rw [← sub_eq_add_neg]
  have hle : (1 - 1 / 2 ^ 53 : ℚ) ^ 8002 ≤ (1 - 1 / 2 ^ 53) ^ (2 * N.card v + 2) :=
    pow_le_pow_of_le_one (by norm_num) (by norm_num) (by have := hcard v hv; omega)
  have hp : (0 : ℚ) ≤ 1 - 8002 * (1 / 2 ^ 53) := by norm_num
  calc (1 : ℚ) ≤ (1 + 9 / 10 ^ 13) * (1 - 8002 * (1 / 2 ^ 53)) := by norm_num
    _ ≤ _ := mul_le_mul hb (hpow.trans hle) hp (le_trans (by norm_num) hb)

/-! ## C174 -/

/-- **C174 (partial).**  If every variable has at most two states, every row of a trajectory sampled in floating point is a genuine transition. -/
theorem float_sample_genuine_partial {u : ℚ} {rnd : ℚ → ℚ} {net : SampleNet} {N : Ctbn} {tEnd : ℚ} {maxTr : ℤ} {draws : SampleDrawsF}
    (h0 : 0 ≤ u) (h1 : u < 1) (hF : FloatRounding u rnd) (hN : FloatNet u rnd N) (hD : Describes net N) (hOK : N.OK)
    (h2 : ∀ v ∈ N.vars, N.card v ≤ 2) {rows : RawTraj} (h : SamplesF rnd net tEnd maxTr draws rows) :
    ∃ (before : List (ℚ × List Nat)) (t : ℚ),
      rows = before.map (fun r => (r.1, r.2.map (fun x : Nat => (x : ℤ)))) ++ [(t, N.vars.map (fun _ => (-1 : ℤ)))] ∧
      ∀ (n : Nat) (a b : ℚ × List Nat), before[n]? = some a → before[n + 1]? = some b → Genuine N a.2 b.2 := by
  obtain ⟨before, t, b1, b2, b3, b4⟩ := float_sample_shape h0 h1 hF hN hD hOK h
  refine ⟨before, t, b1, fun n a b ha hb => ?_⟩
  rcases b4 n a b ha hb with g | ⟨k, v, y, hv, -, h3, -⟩
  · exact g
  · have := h2 v (List.mem_of_getElem? hv)
    omega

namespace Demo

/-- The matrix of a single variable with three states. -/
def tCim : List (List ℚ) := [[-3, 1, 2], [1, -3, 2], [1, 2, -3]]

def tCtbn : Ctbn := ⟨["X"], fun _ => 3, fun _ => [], fun _ _ => tCim⟩

def sT : SetOfCims := ⟨"X", [], 3, [[]], false, [mkCim tCim]⟩

def tNet : SampleNet := SampleNet.new ["X"] [] [("X", sT)]

/-- Positive exponential draws, and every binomial draw fails. -/
def tDraws : SampleDrawsF := ⟨fun _ _ => 1, fun _ _ => false⟩

theorem tDescribes : Describes tNet tCtbn where
  vnames := rfl
  parents := by decide
  cims := by
    intro v hv
    have : v = "X" := by simpa [tCtbn] using hv
    subst this
    refine ⟨sT, by decide, rfl, by decide, ?_, ?_, ?_⟩
    · intro u
      simp only [sT, List.mem_singleton, InRangeAssign, Ctbn.parentCards, tCtbn, List.map_nil]
      constructor
      · rintro rfl; exact .nil
      · intro h; cases h; rfl
    · intro k u m h1 h2
      have hk : k < 1 := by have := (List.getElem?_eq_some_iff.1 h2).1; simpa [sT] using this
      have : k = 0 := by omega
      subst this
      simp only [sT, List.getElem?_cons_zero, Option.some.injEq] at h2
      rw [← h2]; rfl
    · intro h; simp [Ctbn.parentCards, tCtbn] at h

theorem tOK : tCtbn.OK where
  nonempty := by decide
  nodup := by decide
  closed := by intro v _ p hp; simp [tCtbn] at hp
  pos := by intro v _; simp [tCtbn]
  cims := by
    intro v _ u _
    refine ⟨rfl, ?_, ?_, ?_, ?_⟩
    · have : ∀ r ∈ tCim, r.length = 3 := by decide
      exact this
    · have : ∀ i < 3, cell tCim i i ≤ 0 := by decide +kernel
      exact this
    · have : ∀ i < 3, ∀ j < 3, j ≠ i → 0 ≤ cell tCim i j := by decide +kernel
      exact this
    · have : ∀ i < 3, ∃ j < 3, j ≠ i ∧ 0 < cell tCim i j := by decide +kernel
      exact this

/-- The hypotheses of C173 are met. -/
theorem tFloat : FloatRounding (1 / 2 ^ 53) (binRound 53) ∧ FloatNet (1 / 2 ^ 53) (binRound 53) tCtbn := by
  apply float64_sample_assumptions
  · intro v _ us _ r hr x hx
    have : ∀ r ∈ tCim, ∀ x ∈ r, binRound 53 x = x := by decide +kernel
    exact this r hr x hx
  · intro v _; simp [tCtbn]

/-- **C174 (refuted in `float64`).**  A usable network with all intensities positive, and a trajectory sampled from it in which the variable stays in
state 2 from one row to the next: no variable changed. -/
theorem float64_phantom_transition :
    (∀ i < 3, ∀ j < 3, j ≠ i → 0 < cell tCim i j) ∧
    SamplesF (binRound 53) tNet (-1) 3 tDraws [(0, [0]), (3, [2]), (6, [2]), (9, [-1])] := by
  refine ⟨by decide +kernel, 4, by decide +kernel⟩

end Demo
end PyCTBN
