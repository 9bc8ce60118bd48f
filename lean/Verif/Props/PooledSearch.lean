import Verif.Props.Forked
import Verif.Props.ScoreGrowth

/-!
# Structures estimated from many trajectories with the same `max_tr`: C210
-/

open MeasureTheory ProbabilityTheory Filter
open scoped ENNReal Topology

namespace PyCTBN
open Spec JumpPaths

noncomputable section

section
variable {net : SampleNet} {N : Ctbn} (hD : Describes net N) (hOK : N.OK)
include hD hOK
variable {U : Type} [MeasurableSpace U] {P : Measure U} [IsProbabilityMeasure P] (C : Categorical U P)

omit hD hOK in
/-- Longer holding times are as possible as any. -/
theorem jumpLaw_longer (rate : Rates) (ms : List Move) : ∀ vals : List Nat,
    ∃ c : ℝ, 0 < c ∧ jumpLaw N rate (ms.map (fun m => (m.var, m.target, (1 : ℝ)))) vals = c * jumpLaw N rate (ms.map (fun m => (m.var, m.target, (0 : ℝ)))) vals := by
  induction ms with
  | nil => intro vals; exact ⟨1, one_pos, by simp [jumpLaw]⟩
  | cons m ms ih =>
    intro vals
    obtain ⟨c, hc, h⟩ := ih (vals.set m.var m.target)
    refine ⟨Real.exp (-(totalRate N rate vals * 1)) * c, mul_pos (Real.exp_pos _) hc, ?_⟩
    simp only [List.map_cons, jumpLaw, h, mul_zero, neg_zero, Real.exp_zero]
    ring

omit hD hOK in
theorem listTotal_visits (v : Label) (L : List Label) (x y : Nat) (u : List Nat) (ms : List Move) :
    ∀ (ms' : List Move), List.Forall₂ (fun (m' m : Move) => m'.var = m.var ∧ m'.target = m.target ∧ 1 < m'.hold) ms' ms → ∀ vals t t',
      listTotal (linStep (caseStep N v L x y u) (fun _ => 0)) vals t ms.dropLast ≠ 0 →
      0 < listTotal (linStep (fun _ _ => 0) (caseInd N v L x u)) vals t' ms' := by
  induction ms with
  | nil => intro ms' _ vals t t' h; simp [listTotal] at h
  | cons m ms ih =>
    intro ms' hf vals t t' h
    cases hf with
    | @cons m' _ ms' _ hm hf =>
    by_cases hms : ms = []
    · subst hms; simp [listTotal] at h
    rw [List.dropLast_cons_of_ne_nil hms, listTotal] at h
    rw [listTotal]
    have hnn : ∀ vals t, 0 ≤ listTotal (linStep (fun _ _ => 0) (caseInd N v L x u)) vals t ms' := by
      refine listTotal_caseInd_nonneg v L x u ms' (fun a ha => ?_)
      obtain ⟨i, hi, rfl⟩ := List.mem_iff_getElem.1 ha
      have := (List.forall₂_iff_get.1 hf).2 i hi ((List.forall₂_iff_get.1 hf).1 ▸ hi)
      simp only [List.get_eq_getElem] at this
      linarith [this.2.2]
    have hfirst : linStep (fun _ _ => 0) (caseInd N v L x u) vals t' ⟨m'.var, m'.target⟩ m'.hold = caseInd N v L x u vals * ((round4R (t' + m'.hold) : ℝ) - round4R t') := by
      simp [linStep]
    have hlong : 0 < (round4R (t' + m'.hold) : ℝ) - round4R t' := by
      have a := abs_le.1 (abs_roundError_le t')
      have b := abs_le.1 (abs_roundError_le (t' + m'.hold))
      unfold roundError at a b
      linarith [a.2, b.1, hm.2.2]
    rw [hfirst]
    by_cases hcase : Circumstances N v L x u vals
    · have := hnn (vals.set m'.var m'.target) (t' + m'.hold)
      have e1 : caseInd N v L x u vals = 1 := if_pos hcase
      rw [e1]
      linarith
    · have e0 : linStep (caseStep N v L x y u) (fun _ => 0) vals t ⟨m.var, m.target⟩ m.hold = 0 := by
        unfold linStep caseStep
        rw [if_neg (fun h => hcase h.1)]
        ring
      rw [e0, zero_add, ← hm.1, ← hm.2.1] at h
      have e1 : caseInd N v L x u vals = 0 := if_neg hcase
      rw [e1, zero_mul, zero_add]
      exact ih ms' hf _ _ _ h

/-- Circumstances in which no time is spent, on average, never occur. -/
theorem rows_never (hc : N.Conservative) {v : Label} (hv : v ∈ N.vars) {L : List Label} (hL : ∀ p ∈ L, p ∈ N.vars) {x : Nat} {u : List Nat} (n : Nat)
    (h0 : ∫ ω, (rawResidence N.vars [sampledRows (m := N.vars.length) net C n ω] v L x u : ℝ) ∂drawLaw N.vars.length P = 0) :
    ∀ᵐ ω ∂drawLaw N.vars.length P, rawResidence N.vars [sampledRows (m := N.vars.length) net C n ω] v L x u = 0 ∧
      ∀ y, y ≠ x → rawTransitions N.vars [sampledRows (m := N.vars.length) net C n ω] v L x y u = 0 := by
  have hpos := leaves_of_conservative hD hOK hc
  have hU := usable_inverse hD hOK hpos
  have hdraw : IsProbabilityMeasure (drawLaw N.vars.length P) := by unfold drawLaw; infer_instance
  have e1 : ∀ ω, (rawResidence N.vars [sampledRows (m := N.vars.length) net C n ω] v L x u : ℝ)
      = listTotal (linStep (fun _ _ => 0) (caseInd N v L x u)) (N.vars.map (fun _ => 0)) 0 (sampledMoves (m := N.vars.length) net C n ω) :=
    fun ω => (sampledRows_sums hD hOK C hv hL (x := x) (y := x + 1) (by omega) u n ω).1
  have hnn : ∀ᵐ ω ∂drawLaw N.vars.length P, 0 ≤ (rawResidence N.vars [sampledRows (m := N.vars.length) net C n ω] v L x u : ℝ) := by
    filter_upwards [sampled_moves_genuine hD hOK C hpos n] with ω hω
    obtain ⟨ms, h1, -, h3⟩ := hω
    have e2 : sampledMoves net C n ω = ms := by unfold sampledMoves movesOf; rw [h1]
    rw [e1, e2]
    exact listTotal_caseInd_nonneg v L x u ms (fun m hm => by obtain ⟨-, -, -, h⟩ := h3 m hm; exact h.le) _ _
  have hR := (integral_eq_zero_iff_of_nonneg_ae hnn (rows_residence_mean hD hOK C hc hv hL x u n).1).1 h0
  -- moves that are not possible are not made
  have hmm : ∀ L : List MoveEvent, L.length = n → Proper N L → MeasurableSet {ω | MovesAre (net.movesR n (drawsAt (m := N.vars.length) C ω) net.initClock) L} := by
    intro L hl hL; subst hl; exact measurable_moves hD hOK C hL
  have hl : ∀ L : List MoveEvent, L.length = n → Proper N L → drawLaw N.vars.length P {ω | MovesAre (net.movesR n (drawsAt C ω) net.initClock) L}
      = ENNReal.ofReal (jumpLaw N N.inverseRates L (N.vars.map (fun _ => 0))) := by
    intro L hl hL; subst hl; exact sample_moves_law C hD hOK hpos hL
  have hposs : ∀ᵐ ω ∂drawLaw N.vars.length P, ∀ σ ∈ paths N n, ω ∈ onPath (fun ω => net.movesR n (drawsAt (m := N.vars.length) C ω) net.initClock) σ →
      drawLaw N.vars.length P (onPath (fun ω => net.movesR n (drawsAt (m := N.vars.length) C ω) net.initClock) σ) ≠ 0 := by
    rw [Filter.eventually_all_finset]
    intro σ _
    by_cases hz : drawLaw N.vars.length P (onPath (fun ω => net.movesR n (drawsAt (m := N.vars.length) C ω) net.initClock) σ) = 0
    · filter_upwards [measure_eq_zero_iff_ae_notMem.1 hz] with ω h1 h2
      exact absurd h2 h1
    · exact .of_forall (fun _ _ => hz)
  filter_upwards [hR, hposs, sampled_moves_genuine hD hOK C hpos n] with ω h1 h2 hω
  refine ⟨by have h1 : (rawResidence N.vars [sampledRows (m := N.vars.length) net C n ω] v L x u : ℝ) = 0 := h1; exact_mod_cast h1, fun y hy => ?_⟩
  by_contra hM
  obtain ⟨ms, g1, g2, g3⟩ := hω
  have e2 : sampledMoves net C n ω = ms := by unfold sampledMoves movesOf; rw [g1]
  have hM' : listTotal (linStep (caseStep N v L x y u) (fun _ => 0)) (N.vars.map (fun _ => 0)) 0 ms.dropLast ≠ 0 := by
    rcases sampledRows_eq C hD.vnames n ω with h | ⟨h, -⟩
    · have := rows_transitions hOK hv hL hy u ms (t := 0) (vals := N.vars.map (fun _ => 0)) (by simp)
      rw [← this, ← e2, ← h]
      exact_mod_cast hM
    · rw [h] at hM; simp [rawTransitions, consecutive] at hM
  have hproper : ∀ a : ℝ, 0 ≤ a → Proper N (ms.map (fun m => (m.var, m.target, a))) := by
    intro a ha c hcm
    obtain ⟨m, hm, rfl⟩ := List.mem_map.1 hcm
    obtain ⟨w, w1, w2, -⟩ := g3 m hm
    exact ⟨w, w1, w2, ha⟩
  have hjump : 0 < jumpLaw N N.inverseRates (ms.map (fun m => (m.var, m.target, (1 : ℝ)))) (N.vars.map (fun _ => 0)) := by
    obtain ⟨c, hc0, hcj⟩ := jumpLaw_longer (N := N) N.inverseRates ms (N.vars.map (fun _ => 0))
    rw [hcj]
    refine mul_pos hc0 ?_
    rw [← ENNReal.ofReal_pos, ← hl _ (by simp [g2]) (hproper 0 le_rfl), pos_iff_ne_zero]
    let σ : Fin n → Step := fun i => ⟨(ms[i.val]'(g2 ▸ i.2)).var, (ms[i.val]'(g2 ▸ i.2)).target⟩
    have hev : events σ (fun _ => 0) = ms.map (fun m => (m.var, m.target, (0 : ℝ))) := by
      refine List.ext_getElem (by simp [events, g2]) (fun i h1 h2 => ?_)
      simp [events, σ]
    have hσ : σ ∈ paths N n := Fintype.mem_piFinset.2 (fun i => by
      obtain ⟨w, w1, w2, -⟩ := g3 (ms[i.val]'(g2 ▸ i.2)) (List.getElem_mem _)
      exact mem_steps.2 ⟨w, w1, w2⟩)
    have := h2 σ hσ
    simp only [onPath, hev, Set.mem_ofPred_eq] at this
    refine this ⟨ms, g1, ?_⟩
    rw [List.forall₂_map_right_iff]
    exact List.forall₂_same.2 (fun m hm => ⟨rfl, rfl, by obtain ⟨-, -, -, h⟩ := g3 m hm; exact h⟩)
  have hlt : 0 < drawLaw N.vars.length P {ω | MovesAre (net.movesR n (drawsAt (m := N.vars.length) C ω) net.initClock) (ms.map (fun m => (m.var, m.target, (1 : ℝ))))} := by
    rw [hl _ (by simp [g2]) (hproper 1 zero_le_one), ENNReal.ofReal_pos]
    exact hjump
  refine hlt.ne' ?_
  refine measure_mono_null (fun ω' hω' => ?_) hR
  obtain ⟨ms', a1, a2⟩ := hω'
  have e3 : sampledMoves net C n ω' = ms' := by unfold sampledMoves movesOf; rw [a1]
  show ¬ ((rawResidence N.vars [sampledRows (m := N.vars.length) net C n ω'] v L x u : ℝ) = 0)
  rw [e1, e3]
  rw [List.forall₂_map_right_iff] at a2
  exact (listTotal_visits v L x y u ms ms' a2 _ _ _ hM').ne'

omit hD hOK in
/-- What holds almost surely of one trajectory holds almost surely of all of independent ones. -/
theorem many_ae {m : Nat} {Q : (ℕ → (Fin m → ℝ) × U) → Prop} (h : ∀ᵐ ω ∂drawLaw m P, Q ω) : ∀ᵐ ω ∂manyLaw m P, ∀ i, Q (ω i) := by
  have hdraw : IsProbabilityMeasure (drawLaw m P) := by
    haveI : IsProbabilityMeasure (ProbabilityTheory.expMeasure 1) := ProbabilityTheory.isProbabilityMeasure_expMeasure one_pos
    unfold drawLaw; infer_instance
  rw [ae_all_iff]
  intro i
  have hev : MeasurePreserving (fun ω : ℕ → ℕ → (Fin m → ℝ) × U => ω i) (manyLaw m P) (drawLaw m P) := by
    unfold manyLaw
    exact measurePreserving_eval_infinitePi _ i
  exact hev.quasiMeasurePreserving.ae h

omit hD hOK in
/-- The mean time with `v` in `x` and the variables `L` in `u` on the rows of one trajectory sampled with `max_tr = m`. -/
def meanStay (net : SampleNet) (N : Ctbn) (C : Categorical U P) (m : Nat) (v : Label) (L : List Label) (x : Nat) (u : List Nat) : ℝ :=
  ∫ ω, (rawResidence N.vars [sampledRows (m := N.vars.length) net C m ω] v L x u : ℝ) ∂drawLaw N.vars.length P

omit hD hOK in
/-- The mean number of transitions of `v` from `x` to `y` with the variables `L` in `u` on the rows of one trajectory sampled with `max_tr = m`. -/
def meanMoves (net : SampleNet) (N : Ctbn) (C : Categorical U P) (m : Nat) (v : Label) (L : List Label) (x y : Nat) (u : List Nat) : ℝ :=
  ∫ ω, (rawTransitions N.vars [sampledRows (m := N.vars.length) net C m ω] v L x y u : ℝ) ∂drawLaw N.vars.length P

omit hD hOK in
/-- On the rows of trajectories sampled with `max_tr = m`, `p` matters to `n` beyond `K`: in some circumstances there are two states of `p`, both of which occur, under which `n` goes on
average from some state `x` to some state `y` differently often per unit of time. -/
def PooledMatters (net : SampleNet) (N : Ctbn) (C : Categorical U P) (m : Nat) (n : Label) (K : List Label) (p : Label) : Prop :=
  ∃ f : Label → Nat, (∀ q ∈ N.vars, f q < N.card q) ∧ ∃ x y z z', x < N.card n ∧ y < N.card n ∧ y ≠ x ∧ z < N.card p ∧ z' < N.card p ∧
    0 < meanStay net N C m n (p :: K) x (z :: K.map f) ∧ 0 < meanStay net N C m n (p :: K) x (z' :: K.map f) ∧
    meanMoves net N C m n (p :: K) x y (z :: K.map f) / meanStay net N C m n (p :: K) x (z :: K.map f)
      ≠ meanMoves net N C m n (p :: K) x y (z' :: K.map f) / meanStay net N C m n (p :: K) x (z' :: K.map f)

/-- Statistics of pooled trajectories: in any circumstances, nothing ever happens or time and transitions per trajectory tend to their means. -/
theorem pooled_settles (hc : N.Conservative) {v : Label} (hv : v ∈ N.vars) {L : List Label} (hL : ∀ p ∈ L, p ∈ N.vars) (x : Nat) (u : List Nat) (m : Nat) :
    ∀ᵐ ω ∂manyLaw N.vars.length P,
      (meanStay net N C m v L x u = 0 ∧ ∀ k, rawResidence N.vars (pooledRows net C m k ω) v L x u = 0 ∧ ∀ y, y ≠ x → rawTransitions N.vars (pooledRows net C m k ω) v L x y u = 0) ∨
      (0 < meanStay net N C m v L x u ∧ Tendsto (fun k : ℕ => (rawResidence N.vars (pooledRows net C m k ω) v L x u : ℝ) / k) atTop (𝓝 (meanStay net N C m v L x u)) ∧
        ∀ y, y ≠ x → Tendsto (fun k : ℕ => (rawTransitions N.vars (pooledRows net C m k ω) v L x y u : ℝ) / k) atTop (𝓝 (meanMoves net N C m v L x y u))) := by
  have hpos := leaves_of_conservative hD hOK hc
  have hU := usable_inverse hD hOK hpos
  have hdraw : IsProbabilityMeasure (drawLaw N.vars.length P) := by unfold drawLaw; infer_instance
  have eM : ∀ (k : ℕ) (ω : ℕ → ℕ → (Fin N.vars.length → ℝ) × U) (y : Nat), rawTransitions N.vars (pooledRows net C m k ω) v L x y u = ∑ i ∈ Finset.range k, rawTransitions N.vars [sampledRows net C m (ω i)] v L x y u := by
    intro k ω y
    rw [rawTransitions_many, pooledRows, List.map_map]
    rfl
  have eT : ∀ (k : ℕ) (ω : ℕ → ℕ → (Fin N.vars.length → ℝ) × U), rawResidence N.vars (pooledRows net C m k ω) v L x u = ∑ i ∈ Finset.range k, rawResidence N.vars [sampledRows net C m (ω i)] v L x u := by
    intro k ω
    rw [rawResidence_many, pooledRows, List.map_map]
    rfl
  have hnn : 0 ≤ meanStay net N C m v L x u := by
    refine integral_nonneg_of_ae ?_
    filter_upwards [sampled_moves_genuine hD hOK C hpos m] with ω hω
    obtain ⟨ms, h1, -, h3⟩ := hω
    have e2 : sampledMoves net C m ω = ms := by unfold sampledMoves movesOf; rw [h1]
    rw [(sampledRows_sums hD hOK C hv hL (x := x) (y := x + 1) (by omega) u m ω).1, e2]
    exact listTotal_caseInd_nonneg v L x u ms (fun m hm => by obtain ⟨-, -, -, h⟩ := h3 m hm; exact h.le) _ _
  rcases hnn.eq_or_lt with h0 | h0
  · filter_upwards [many_ae (rows_never hD hOK C hc hv hL m h0.symm)] with ω hω
    refine .inl ⟨h0.symm, fun k => ⟨?_, fun y hy => ?_⟩⟩
    · rw [eT]; exact Finset.sum_eq_zero (fun i _ => (hω i).1)
    · rw [eM]; exact Finset.sum_eq_zero (fun i _ => (hω i).2 y hy)
  · have hM : ∀ y, ∀ᵐ ω ∂manyLaw N.vars.length P, y ≠ x →
        Tendsto (fun k : ℕ => (∑ i ∈ Finset.range k, (rawTransitions N.vars [sampledRows net C m (ω i)] v L x y u : ℝ)) / k) atTop (𝓝 (meanMoves net N C m v L x y u)) := by
      intro y
      by_cases hy : y = x
      · exact .of_forall (fun _ h => absurd hy h)
      · filter_upwards [repetitions_mean (rows_transitions_integrable hD hOK C hc hv hL hy u m)] with ω hω _
        exact hω
    filter_upwards [ae_all_iff.2 hM, repetitions_mean (rows_residence_mean hD hOK C hc hv hL x u m).1] with ω hM hT
    refine .inr ⟨h0, ?_, fun y hy => ?_⟩
    · simp only [eT]
      push_cast
      exact hT
    · simp only [eM]
      push_cast
      exact hM y hy

omit hD hOK in
theorem rawMatches_congr (vars : List Label) (v : Label) {L L' : List Label} (h : ∀ q, q ∈ L ↔ q ∈ L') (x : Nat) (f : Label → Nat) (r : ℚ × List ℤ) :
    rawMatches vars v L x (L.map f) r = rawMatches vars v L' x (L'.map f) r := by
  unfold rawMatches
  congr 1
  rw [decide_eq_decide, List.map_map, List.map_map, List.map_inj_left, List.map_inj_left]
  simp only [h]

omit hD hOK in
theorem meanStay_congr (net : SampleNet) (N : Ctbn) (C : Categorical U P) (m : Nat) (v : Label) {L L' : List Label} (h : ∀ q, q ∈ L ↔ q ∈ L') (x : Nat) (f : Label → Nat) :
    meanStay net N C m v L x (L.map f) = meanStay net N C m v L' x (L'.map f) := by
  unfold meanStay rawResidence
  simp only [rawMatches_congr N.vars v h]

omit hD hOK in
theorem meanMoves_congr (net : SampleNet) (N : Ctbn) (C : Categorical U P) (m : Nat) (v : Label) {L L' : List Label} (h : ∀ q, q ∈ L ↔ q ∈ L') (x y : Nat) (f : Label → Nat) :
    meanMoves net N C m v L x y (L.map f) = meanMoves net N C m v L' x y (L'.map f) := by
  unfold meanMoves rawTransitions
  simp only [rawMatches_congr N.vars v h]

/-- **C210** What is found in many trajectories.  Trajectories sampled by independent calls with the same `max_tr = m ≥ 1` are pooled.  All variables have `c ≥ 2` states, the hyperparameters are
positive, and score-based estimation runs by tabu search under the conditions of C130.  If `p` matters to `n` on the rows of such trajectories, whatever other variables are taken into account,
then almost surely, once the trajectories are many enough, importing them works and whatever network is returned has the edge from `p` to `n`: whether or not it is an edge of the network sampled. -/
theorem pooled_edges_found (hcl : NoSuffixClash N.vars) (hT : "Time" ∉ N.vars) (hc : N.Conservative) {c : Nat} (hc2 : 2 ≤ c) (hcard : ∀ v ∈ N.vars, N.card v = c)
    {m : Nat} (hm : 1 ≤ m) {n p : Label} (hn : n ∈ N.vars) (hp : p ∈ N.vars) (hpn : p ≠ n)
    (hmat : ∀ K : List Label, (∀ q ∈ K, q ∈ N.vars) → p ∉ K → n ∉ K → PooledMatters net N C m n K p)
    (es₀ : List Edge) {τ α : ℝ} (hτ : 0 < τ) (hα : 0 < α) {R : List (List Bool)} {known : List Edge}
    (hR : buildRemovable (builtStruct N.vars (N.vars.map N.card) es₀) N.vars.length known = .ok R) (hknown : ∀ e ∈ known, e.1 ≠ e.2) (hkn : (p, n) ∉ known) {a : SBArgs}
    (hopt : a.optimizer = "tabu") (hmp : a.maxParents = none) (htl : ∀ k, a.tabuLength = some k → (N.vars.length : ℤ) - 1 ≤ k)
    (htd : ∀ k, a.tabuDuration = some k → (N.vars.length : ℤ) - 1 ≤ |k|) (hpat : ∀ m, a.patience = some m → (N.vars.length : ℤ) - 1 ≤ m + 1)
    (hit : (N.vars.length - 1) * 2 ^ (N.vars.length - 1) ≤ a.iterations) :
    ∀ᵐ ω ∂manyLaw N.vars.length P, ∃ k₀, ∀ k, k₀ ≤ k → ∃ (sp : SamplePath) (s : Structure) (t : Trajectory),
      buildFromRaw ((pooledRows net C m k ω).map (SampleNet.frame N.vars)) ⟨List.range N.vars.length, N.vars, N.vars.map N.card⟩ es₀ = .ok sp ∧
      sp.struct = some s ∧ sp.trajectories = some t ∧
      ∀ (complete : DiGraph) (order : Option (List Label)) (pick drop : Label → Nat → Nat) (es : Finset Edge) (rep : Option (ℚ × ℚ)) (e' : Estimator),
        (∀ o, order = some o → o.Perm N.vars) → estimateStructure (famScoreOn t τ α) R ⟨s, complete⟩ a order pick drop = (.ok (es, rep), e') → (p, n) ∈ es := by
  have hpos := leaves_of_conservative hD hOK hc
  have hall : ∀ᵐ ω ∂manyLaw N.vars.length P, ∀ L ∈ N.vars.sublists.toFinset, ∀ (x : Nat) (u : List Nat),
      (meanStay net N C m n L x u = 0 ∧ ∀ k, rawResidence N.vars (pooledRows net C m k ω) n L x u = 0 ∧ ∀ y, y ≠ x → rawTransitions N.vars (pooledRows net C m k ω) n L x y u = 0) ∨
      (0 < meanStay net N C m n L x u ∧ Tendsto (fun k : ℕ => (rawResidence N.vars (pooledRows net C m k ω) n L x u : ℝ) / k) atTop (𝓝 (meanStay net N C m n L x u)) ∧
        ∀ y, y ≠ x → Tendsto (fun k : ℕ => (rawTransitions N.vars (pooledRows net C m k ω) n L x y u : ℝ) / k) atTop (𝓝 (meanMoves net N C m n L x y u))) := by
    rw [Filter.eventually_all_finset]
    intro L hL
    rw [ae_all_iff]
    intro x
    rw [ae_all_iff]
    intro u
    exact pooled_settles hD hOK C hc hn (fun q hq => (List.mem_sublists.1 (List.mem_toFinset.1 hL)).subset hq) x u m
  filter_upwards [hall, many_ae (sampled_rows_usable hD hOK C hpos hm)] with ω hω huse
  set s := builtStruct N.vars (N.vars.map N.card) es₀ with hs
  have hdata : ∀ k, UsableData N (pooledRows net C m (k + 1) ω) := by
    intro k
    refine ⟨?_, fun r hr => ?_⟩
    · unfold pooledRows; simp
    · obtain ⟨i, -, rfl⟩ := List.mem_map.1 hr; exact huse i
  have hb := fun k => usable_builds hOK hcl hT hcard (hdata k) es₀
  have hord : ∀ S, ordered s.cleanEdges S ∈ N.vars.sublists.toFinset := fun S => List.mem_toFinset.2 (List.mem_sublists.2 List.filter_sublist)
  have hordm : ∀ S : List Label, (∀ q ∈ S, q ∈ N.vars) → ∀ q, q ∈ ordered s.cleanEdges S ↔ q ∈ S := by
    intro S hS q
    unfold ordered
    rw [List.mem_filter, decide_eq_true_eq]
    exact ⟨fun h => h.2, fun h => ⟨hS q h, h⟩⟩
  have hN : Tendsto (fun k : ℕ => ((k + 1 : ℕ) : ℝ)) atTop atTop := tendsto_natCast_atTop_atTop.comp (tendsto_add_atTop_nat 1)
  have htime : ∀ (K : List Label), (∀ q ∈ K, q ∈ N.vars) → ∀ (g : Label → Nat) (z x k : Nat),
      (givenWith s.cleanEdges (builtTraj N.vars (pooledRows net C m (k + 1) ω)) n c K p g z).time x
        = rawResidence N.vars (pooledRows net C m (k + 1) ω) n (ordered s.cleanEdges (p :: K)) x ((ordered s.cleanEdges (p :: K)).map (Function.update g p z)) := by
    intro K hK g z x k
    exact ((hb k).2.2 n hn _ (fun q hq => (List.mem_sublists.1 (List.mem_toFinset.1 (hord (p :: K)))).subset hq) x _).1
  have hcount : ∀ (K : List Label), (∀ q ∈ K, q ∈ N.vars) → ∀ (g : Label → Nat) (z x y k : Nat), y ≠ x →
      (givenWith s.cleanEdges (builtTraj N.vars (pooledRows net C m (k + 1) ω)) n c K p g z).count x y
        = rawTransitions N.vars (pooledRows net C m (k + 1) ω) n (ordered s.cleanEdges (p :: K)) x y ((ordered s.cleanEdges (p :: K)).map (Function.update g p z)) := by
    intro K hK g z x y k hy
    refine (if_neg hy.symm).trans ?_
    exact ((hb k).2.2 n hn _ (fun q hq => (List.mem_sublists.1 (List.mem_toFinset.1 (hord (p :: K)))).subset hq) x _).2 y
  have hsettle : ∀ (K : List Label), (∀ q ∈ K, q ∈ N.vars) → ∀ (g : Label → Nat) (z x : Nat),
      0 < meanStay net N C m n (ordered s.cleanEdges (p :: K)) x ((ordered s.cleanEdges (p :: K)).map (Function.update g p z)) →
      SettlesAt (fun k : ℕ => ((k + 1 : ℕ) : ℝ)) (fun k => givenWith s.cleanEdges (builtTraj N.vars (pooledRows net C m (k + 1) ω)) n c K p g z) c x
        (meanStay net N C m n (ordered s.cleanEdges (p :: K)) x ((ordered s.cleanEdges (p :: K)).map (Function.update g p z)))
        (fun y => meanMoves net N C m n (ordered s.cleanEdges (p :: K)) x y ((ordered s.cleanEdges (p :: K)).map (Function.update g p z))
          / meanStay net N C m n (ordered s.cleanEdges (p :: K)) x ((ordered s.cleanEdges (p :: K)).map (Function.update g p z))) := by
    intro K hK g z x h0
    rcases hω _ (hord (p :: K)) x ((ordered s.cleanEdges (p :: K)).map (Function.update g p z)) with ⟨h, -⟩ | ⟨-, h1, h2⟩
    · exact absurd h h0.ne'
    · refine ⟨h0, ?_, fun y _ hy => ?_⟩
      · simp only [htime K hK]
        exact h1.comp (tendsto_add_atTop_nat 1)
      · simp only [htime K hK, hcount K hK _ _ _ _ _ hy]
        refine (((h2 y hy).comp (tendsto_add_atTop_nat 1)).div (h1.comp (tendsto_add_atTop_nat 1)) h0.ne').congr (fun k => ?_)
        have hk : ((k + 1 : ℕ) : ℝ) ≠ 0 := by positivity
        simp only [Function.comp_apply, Pi.div_apply]
        exact div_div_div_cancel_right₀ hk _ _
  obtain ⟨k₀, hk₀⟩ := score_growth_found (s := s) (ts := fun k => builtTraj N.vars (pooledRows net C m (k + 1) ω)) (c := c) (fun k => (hb k).2.1) hc2 hτ hα (R := R) (known := known)
    ⟨rfl, hR, hknown⟩ hopt hmp htl htd hpat hit hn hp hpn hkn (fun K hK hpK hnK => by
      refine likelihood_growth_of (s := s.cleanEdges) (N := fun k : ℕ => ((k + 1 : ℕ) : ℝ)) (fun k => (hb k).2.1) hc2 hτ hα hN hp hpK (fun g hg x z hx hz => ?_) ?_
      · rcases hω _ (hord (p :: K)) x ((ordered s.cleanEdges (p :: K)).map (Function.update g p z)) with ⟨-, h⟩ | ⟨h, -⟩
        · refine .inl (fun k => ⟨?_, fun y hy => ?_⟩)
          · rw [htime K hK]; exact (h (k + 1)).1
          · rw [hcount K hK _ _ _ _ _ hy]; exact (h (k + 1)).2 y hy
        · exact .inr ⟨_, _, hsettle K hK g z x h⟩
      · obtain ⟨f, hf, x, y, z, z', hx, hy, hyx, hz, hz', t1, t2, hne⟩ := hmat K hK hpK hnK
        have hmem := hordm (p :: K) (fun q hq => by
          rcases List.mem_cons.1 hq with rfl | h
          · exact hp
          · exact hK q h)
        have hmap : ∀ z, (p :: K).map (Function.update (fun q => if q ∈ N.vars then f q else 0) p z) = z :: K.map f := by
          intro z
          rw [List.map_cons, Function.update_self]
          congr 1
          refine List.map_congr_left (fun q hq => ?_)
          rw [Function.update_of_ne (by rintro rfl; exact hpK hq)]
          exact if_pos (hK q hq)
        have eS : ∀ z, meanStay net N C m n (ordered s.cleanEdges (p :: K)) x ((ordered s.cleanEdges (p :: K)).map (Function.update (fun q => if q ∈ N.vars then f q else 0) p z))
            = meanStay net N C m n (p :: K) x (z :: K.map f) := by
          intro z
          rw [meanStay_congr net N C m n hmem, hmap]
        have eF : ∀ z, meanMoves net N C m n (ordered s.cleanEdges (p :: K)) x y ((ordered s.cleanEdges (p :: K)).map (Function.update (fun q => if q ∈ N.vars then f q else 0) p z))
            = meanMoves net N C m n (p :: K) x y (z :: K.map f) := by
          intro z
          rw [meanMoves_congr net N C m n hmem, hmap]
        rw [hcard n hn] at hx hy
        rw [hcard p hp] at hz hz'
        refine ⟨fun q => if q ∈ N.vars then f q else 0, fun q => ?_, x, y, z, z', hx, hy, hyx, hz, hz', _, _, _, _, hsettle K hK _ z x ?_, hsettle K hK _ z' x ?_, ?_⟩
        · dsimp only
          split_ifs with hq
          · rw [← hcard q hq]; exact hf q hq
          · omega
        · rw [eS]; exact t1
        · rw [eS]; exact t2
        · rw [eS, eS, eF, eF]
          exact hne)
  refine ⟨k₀ + 1, fun k hk => ?_⟩
  obtain ⟨k, rfl⟩ : ∃ j, k = j + 1 := ⟨k - 1, by omega⟩
  obtain ⟨⟨sp, p1, p2, p3⟩, -, -⟩ := hb k
  exact ⟨sp, _, _, p1, p2, p3, fun complete order pick drop es rep e' ho h => hk₀ k (by omega) complete order pick drop es rep e' ho h⟩

end

end

end PyCTBN
