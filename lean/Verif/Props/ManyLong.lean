import Verif.Props.PooledRows
import Verif.Props.EndRows
import Mathlib.Algebra.Order.Chebyshev

/-!
# A fixed number of long independent trajectories: C208
-/

open MeasureTheory ProbabilityTheory Filter
open scoped ENNReal Topology

namespace PyCTBN
open Spec JumpPaths

noncomputable section

/-- What is likely of one trajectory is likely of each of independent ones. -/
theorem Likely.coordinate {Ω ι : Type} [MeasurableSpace Ω] {μ : Measure Ω} [IsProbabilityMeasure μ] {l : Filter ι} {Q : ι → Ω → Prop} (h : Likely μ l Q) (i : ℕ) :
    Likely (Measure.infinitePi (fun _ : ℕ => μ)) l (fun m ω => Q m (ω i)) := by
  refine tendsto_of_tendsto_of_tendsto_of_le_of_le tendsto_const_nhds h (fun _ => zero_le) (fun m => ?_)
  have hev : MeasurePreserving (fun ω : ℕ → Ω => ω i) (Measure.infinitePi (fun _ : ℕ => μ)) μ := measurePreserving_eval_infinitePi _ i
  have := Measure.le_map_apply (μ := Measure.infinitePi (fun _ : ℕ => μ)) (measurable_pi_apply i).aemeasurable {a | ¬ Q m a}
  rw [hev.map_eq] at this
  exact this

theorem rawResidence_flatMap (vars : List Label) (v : Label) (L : List Label) (x : Nat) (u : List Nat) (f : ℕ → List RawTraj) (k : Nat) :
    (rawResidence vars ((List.range k).flatMap f) v L x u : ℝ) = ∑ i ∈ Finset.range k, (rawResidence vars (f i) v L x u : ℝ) := by
  rw [← sum_range_list]
  have : ∀ l : List ℕ, rawResidence vars (l.flatMap f) v L x u = (l.map (fun i => rawResidence vars (f i) v L x u)).sum := by
    intro l
    rw [rawResidence_many]
    induction l with
    | nil => rfl
    | cons a l ih => rw [List.flatMap_cons, List.map_append, List.sum_append, ih, ← rawResidence_many, List.map_cons, List.sum_cons]
  rw [this, Rat.cast_list_sum, List.map_map]
  rfl

theorem rawTransitions_flatMap (vars : List Label) (v : Label) (L : List Label) (x y : Nat) (u : List Nat) (f : ℕ → List RawTraj) (k : Nat) :
    (rawTransitions vars ((List.range k).flatMap f) v L x y u : ℝ) = ∑ i ∈ Finset.range k, (rawTransitions vars (f i) v L x y u : ℝ) := by
  rw [← sum_range_list]
  have : ∀ l : List ℕ, rawTransitions vars (l.flatMap f) v L x y u = (l.map (fun i => rawTransitions vars (f i) v L x y u)).sum := by
    intro l
    rw [rawTransitions_many]
    induction l with
    | nil => rfl
    | cons a l ih => rw [List.flatMap_cons, List.map_append, List.sum_append, ih, ← rawTransitions_many, List.map_cons, List.sum_cons]
  rw [this, Nat.cast_list_sum, List.map_map]
  rfl

/-- Typical trajectories, put together, are typical. -/
theorem TypicalRows.pool {N : Ctbn} {π : List Nat → ℝ} {Ω ι : Type} [MeasurableSpace Ω] {μ : Measure Ω} {l : Filter ι} {size : ι → ℝ} {k : ℝ} {rows : ℕ → ι → Ω → List RawTraj}
    {K : Nat} (hK : 0 < K) (h : ∀ i < K, TypicalRows N π μ l size k (rows i)) :
    TypicalRows N π μ l size (k / K) (fun m ω => (List.range K).flatMap (fun i => rows i m ω)) := by
  have hK' : (0 : ℝ) < K := by exact_mod_cast hK
  have hfin : {i : ℕ | i ∈ Finset.range K}.Finite := (Finset.range K).finite_toSet
  have hmean : ∀ {ε : ℝ} {f : ℕ → ℝ} {s c : ℝ}, (∀ i ∈ Finset.range K, |f i / s - c / k| < ε / K) → |(∑ i ∈ Finset.range K, f i) / s - c / (k / K)| < ε := by
    intro ε f s c hf
    have e : (∑ i ∈ Finset.range K, f i) / s - c / (k / K) = ∑ i ∈ Finset.range K, (f i / s - c / k) := by
      rw [Finset.sum_sub_distrib, Finset.sum_div, Finset.sum_const, Finset.card_range, nsmul_eq_mul]
      congr 1
      field_simp
    rw [e]
    refine (Finset.abs_sum_le_sum_abs _ _).trans_lt ((Finset.sum_lt_sum_of_nonempty (Finset.nonempty_range_iff.2 hK.ne') hf).trans_le ?_)
    rw [Finset.sum_const, Finset.card_range, nsmul_eq_mul, mul_div_cancel₀ _ hK'.ne']
  refine ⟨(h 0 hK).grows, div_pos (h 0 hK).pos hK', ?_, ?_⟩
  · intro ε hε v hv L hL x u
    refine ⟨?_, fun y hy hyx => ⟨?_, fun hP => ?_⟩⟩
    · refine (Likely.all hfin (fun i hi => ((h i (Finset.mem_range.1 hi)).close (div_pos hε hK') hv hL x u).1)).mono (.of_forall (fun m ω hω => ?_))
      rw [rawResidence_flatMap]
      exact hmean hω
    · refine (Likely.all hfin (fun i hi => (((h i (Finset.mem_range.1 hi)).close (div_pos hε hK') hv hL x u).2 y hy hyx).1)).mono (.of_forall (fun m ω hω => ?_))
      rw [rawTransitions_flatMap]
      exact hmean hω
    · refine (Likely.all hfin (fun i hi => (((h i (Finset.mem_range.1 hi)).close (div_pos hε (mul_pos hK' hK')) hv hL x u).2 y hy hyx).2 hP)).mono ?_
      filter_upwards [(h 0 hK).grows.eventually_gt_atTop 1] with m hm ω hω
      rw [rawTransitions_flatMap, rawResidence_flatMap]
      have hpos : 0 < size m * Real.log (size m) := mul_pos (by linarith) (Real.log_pos hm)
      rw [div_lt_iff₀ hpos, Finset.mul_sum, ← Finset.sum_sub_distrib]
      refine sq_sum_le_card_mul_sum_sq.trans_lt ?_
      rw [Finset.card_range]
      have hs : ∑ i ∈ Finset.range K, ((rawTransitions N.vars (rows i m ω) v L x y u : ℝ) - N.inverseAt v (N.parentPart v L u) x y * (rawResidence N.vars (rows i m ω) v L x u : ℝ)) ^ 2
          < ∑ _i ∈ Finset.range K, ε / (K * K) * (size m * Real.log (size m)) := by
        refine Finset.sum_lt_sum_of_nonempty (Finset.nonempty_range_iff.2 hK.ne') (fun i hi => ?_)
        have := hω i hi
        rwa [div_lt_iff₀ hpos] at this
      rw [Finset.sum_const, Finset.card_range, nsmul_eq_mul] at hs
      have := mul_lt_mul_of_pos_left hs hK'
      refine this.trans_le (le_of_eq ?_)
      field_simp
  · refine (Likely.all hfin (fun i hi => (h i (Finset.mem_range.1 hi)).usable)).mono (.of_forall (fun m ω hω => ⟨?_, ?_⟩))
    · intro hnil
      exact (hω 0 (Finset.mem_range.2 hK)).1 (List.flatMap_eq_nil_iff.1 hnil 0 (List.mem_range.2 hK))
    · intro r hr
      obtain ⟨i, hi, hr⟩ := List.mem_flatMap.1 hr
      exact (hω i (Finset.mem_range.2 (List.mem_range.1 hi))).2 r hr

/-- Each of independent typical trajectories is typical. -/
theorem TypicalRows.coordinate {N : Ctbn} {π : List Nat → ℝ} {Ω ι : Type} [MeasurableSpace Ω] {μ : Measure Ω} [IsProbabilityMeasure μ] {l : Filter ι} {size : ι → ℝ} {k : ℝ}
    {rows : ι → Ω → List RawTraj} (h : TypicalRows N π μ l size k rows) (i : ℕ) : TypicalRows N π (Measure.infinitePi (fun _ : ℕ => μ)) l size k (fun m ω => rows m (ω i)) where
  grows := h.grows
  pos := h.pos
  close hε _ hv _ hL x u := ⟨(h.close hε hv hL x u).1.coordinate i, fun y hy hyx =>
    ⟨((h.close hε hv hL x u).2 y hy hyx).1.coordinate i, fun hP => (((h.close hε hv hL x u).2 y hy hyx).2 hP).coordinate i⟩⟩
  usable := h.usable.coordinate i

/-- Independent typical trajectories, put together, are typical. -/
theorem typical_many {N : Ctbn} {π : List Nat → ℝ} {Ω ι : Type} [MeasurableSpace Ω] {μ : Measure Ω} [IsProbabilityMeasure μ] {l : Filter ι} {size : ι → ℝ} {k : ℝ} {rows : ι → Ω → List RawTraj}
    (h : TypicalRows N π μ l size k rows) {K : Nat} (hK : 0 < K) :
    TypicalRows N π (Measure.infinitePi (fun _ : ℕ => μ)) l size (k / K) (fun m ω => (List.range K).flatMap (fun i => rows m (ω i))) :=
  TypicalRows.pool (rows := fun i m (ω : ℕ → Ω) => rows m (ω i)) hK (fun i _ => h.coordinate i)

section
variable {net : SampleNet} {N : Ctbn} (hD : Describes net N) (hOK : N.OK)
include hD hOK
variable {U : Type} [MeasurableSpace U] {P : Measure U} [IsProbabilityMeasure P] (C : Categorical U P)

/-- `K` trajectories sampled with `max_tr = m` each. -/
theorem many_typical (hc : N.Conservative) (hirr : N.Irreducible) {π : List Nat → ℝ} (hπ : Stationary N N.inverseRates π) {K : Nat} (hK : 0 < K) :
    TypicalRows N π (manyLaw N.vars.length P) atTop (fun m : ℕ => (m : ℝ)) (pace N N.inverseRates π / K) (fun m ω => pooledRows net C m K ω) := by
  have hdraw : IsProbabilityMeasure (drawLaw N.vars.length P) := by unfold drawLaw; infer_instance
  have := typical_many (sampled_typical hD hOK C hc hirr hπ) hK
  simp only [pooledRows, List.map_eq_flatMap]
  exact this

omit hD hOK in
/-- The rows of `k` calls of `CTBN_Sample(t_end = T)`, one after the other. -/
def pooledEnd (net : SampleNet) {m : Nat} (C : Categorical U P) (T : ℝ) (k : Nat) (ω : ℕ → ℕ → (Fin m → ℝ) × U) : List RawTraj :=
  (List.range k).map (fun i => endRows net C T (ω i))

/-- `K` trajectories sampled with `t_end = T` each. -/
theorem many_end_typical (hc : N.Conservative) (hirr : N.Irreducible) {π : List Nat → ℝ} (hπ : Stationary N N.inverseRates π) {K : Nat} (hK : 0 < K) :
    TypicalRows N π (manyLaw N.vars.length P) atTop (fun T : ℝ => T) (1 / K) (fun T ω => pooledEnd net C T K ω) := by
  have hdraw : IsProbabilityMeasure (drawLaw N.vars.length P) := by unfold drawLaw; infer_instance
  have := typical_many (end_typical hD hOK C hc hirr hπ) hK
  simp only [pooledEnd, List.map_eq_flatMap]
  exact this

/-- **C208** (estimates).  What the library estimates from `K` long trajectories converges in probability, as they get longer, to the stationary mean rate of the move in the circumstances;
given all parents, this is the rate of the sampled process. -/
theorem many_estimate_limit (hc : N.Conservative) (hirr : N.Irreducible) {π : List Nat → ℝ} (hπ : Stationary N N.inverseRates π)
    {v : Label} (hv : v ∈ N.vars) {L : List Label} (hL : ∀ p ∈ L, p ∈ N.vars) {x y : Nat} (hxy : y ≠ x) (hy : y < N.card v) (u : List Nat)
    (hshare : 0 < share N π v L x u) {K : Nat} (hK : 0 < K) {ε : ℝ} (hε : 0 < ε) :
    Tendsto (fun m => manyLaw N.vars.length P {ω | ε ≤ |((rawTransitions N.vars (pooledRows net C m K ω) v L x y u : ℝ) + 1)
        / ((rawResidence N.vars (pooledRows net C m K ω) v L x u : ℝ) + 1) - flux N N.inverseRates π v L x y u / share N π v L x u|}) atTop (𝓝 0) ∧
    Tendsto (fun T => manyLaw N.vars.length P {ω | ε ≤ |((rawTransitions N.vars (pooledEnd net C T K ω) v L x y u : ℝ) + 1)
        / ((rawResidence N.vars (pooledEnd net C T K ω) v L x u : ℝ) + 1) - flux N N.inverseRates π v L x y u / share N π v L x u|}) atTop (𝓝 0) := by
  have h1 := typical_estimate_limit (many_typical hD hOK C hc hirr hπ hK) hv hL hxy hy u hshare hε
  have h2 := typical_estimate_limit (many_end_typical hD hOK C hc hirr hπ hK) hv hL hxy hy u hshare hε
  unfold Likely at h1 h2
  simp only [not_lt] at h1 h2
  exact ⟨h1, h2⟩

/-- **C208** (tabu search).  As C196 and C203, from `K` independent trajectories imported together. -/
theorem many_network_recovered (hcl : NoSuffixClash N.vars) (hT : "Time" ∉ N.vars) (hc : N.Conservative) (hpos : N.AllPositive) {c : Nat} (hc2 : 2 ≤ c)
    (hcard : ∀ v ∈ N.vars, N.card v = c) (hns : ∀ v ∈ N.vars, v ∉ N.parents v) (htell : ∀ n ∈ N.vars, ∀ p ∈ N.parents n, Tells N p n)
    (es : List Edge) {τ α : ℝ} (hτ : 0 < τ) (hα : 0 < α) {R : List (List Bool)} {known : List Edge}
    (hR : buildRemovable (builtStruct N.vars (N.vars.map N.card) es) N.vars.length known = .ok R) (hknown : ∀ e ∈ known, e ∈ N.edges)
    (hcand : ∀ n ∈ N.vars, ∃ q ∈ N.vars, q ≠ n ∧ (q, n) ∉ known) {a : SBArgs}
    (hopt : a.optimizer = "tabu") (hmp : a.maxParents = none) (htl : ∀ k, a.tabuLength = some k → (N.vars.length : ℤ) - 1 ≤ k)
    (htd : ∀ k, a.tabuDuration = some k → (N.vars.length : ℤ) - 1 ≤ |k|) (hpat : ∀ m, a.patience = some m → (N.vars.length : ℤ) - 1 ≤ m + 1)
    (hit : (N.vars.length - 1) * 2 ^ (N.vars.length - 1) ≤ a.iterations) {K : Nat} (hK : 0 < K) :
    Tendsto (fun m => manyLaw N.vars.length P {ω | ¬ Recovers N es τ α R a (pooledRows net C m K ω)}) atTop (𝓝 0) ∧
    Tendsto (fun T => manyLaw N.vars.length P {ω | ¬ Recovers N es τ α R a (pooledEnd net C T K ω)}) atTop (𝓝 0) := by
  have hirr := irreducible_of_allPositive hOK hpos
  obtain ⟨π, hπ, -⟩ := sample_stationary hD hOK hc hirr
  have hmat : ∀ n ∈ N.vars, ∀ p ∈ N.parents n, ∀ K : List Label, (∀ q ∈ K, q ∈ N.vars) → p ∉ K → n ∉ K → StationaryMatters N N.inverseRates π n K p :=
    (fun n hn p hp K hK hpK hnK => tells_matters hD hOK hc hirr hπ hn hp (by rintro rfl; exact hns _ hn hp) (htell n hn p hp) hK hpK hnK)
  exact ⟨typical_network_recovered hD hOK (many_typical hD hOK C hc hirr hπ hK) hcl hT hc hpos hc2 hcard hns hπ hmat es hτ hα hR hknown hcand hopt hmp htl htd hpat hit,
    typical_network_recovered hD hOK (many_end_typical hD hOK C hc hirr hπ hK) hcl hT hc hpos hc2 hcard hns hπ hmat es hτ hα hR hknown hcand hopt hmp htl htd hpat hit⟩

/-- **C208** (constraint-based estimation).  As C198 and C204, from `K` independent trajectories imported together. -/
theorem many_edges_kept (hcl : NoSuffixClash N.vars) (hT : "Time" ∉ N.vars) (hc : N.Conservative) (hpos : N.AllPositive) {c : Nat} (hc0 : 0 < c)
    (hcard : ∀ v ∈ N.vars, N.card v = c) (hns : ∀ v ∈ N.vars, v ∉ N.parents v) (htell : ∀ n ∈ N.vars, ∀ p ∈ N.parents n, Tells N p n)
    (es : List Edge) {Q : IndepParams} (hQ : QuantilesTighten Q c) (known : List Edge) {K : Nat} (hK : 0 < K) :
    Tendsto (fun m => manyLaw N.vars.length P {ω | ¬ KeepsEdges N es Q known (pooledRows net C m K ω)}) atTop (𝓝 0) ∧
    Tendsto (fun T => manyLaw N.vars.length P {ω | ¬ KeepsEdges N es Q known (pooledEnd net C T K ω)}) atTop (𝓝 0) := by
  have hirr := irreducible_of_allPositive hOK hpos
  obtain ⟨π, hπ, -⟩ := sample_stationary hD hOK hc hirr
  have hmat : ∀ n ∈ N.vars, ∀ p ∈ N.parents n, ∀ K : List Label, (∀ q ∈ K, q ∈ N.vars) → p ∉ K → n ∉ K → StationaryMatters N N.inverseRates π n K p :=
    (fun n hn p hp K hK hpK hnK => tells_matters hD hOK hc hirr hπ hn hp (by rintro rfl; exact hns _ hn hp) (htell n hn p hp) hK hpK hnK)
  exact ⟨typical_edges_kept hD hOK (many_typical hD hOK C hc hirr hπ hK).toClose hcl hT hc hpos hc0 hcard hns hπ hmat es hQ known,
    typical_edges_kept hD hOK (many_end_typical hD hOK C hc hirr hπ hK).toClose hcl hT hc hpos hc0 hcard hns hπ hmat es hQ known⟩

/-- **C208** (hill climbing).  As C200 and C205, from `K` independent trajectories imported together. -/
theorem many_hill_recovered {ε : ℝ} (hε : 0 < ε) (hcl : NoSuffixClash N.vars) (hT : "Time" ∉ N.vars) (hc : N.Conservative) (hpos : N.AllPositive) {c : Nat} (hc2 : 2 ≤ c)
    (hcard : ∀ v ∈ N.vars, N.card v = c) (hns : ∀ v ∈ N.vars, v ∉ N.parents v) (htell : ∀ n ∈ N.vars, ∀ p ∈ N.parents n, Tells N p n)
    (es : List Edge) {τ α : ℝ} (hτ : 0 < τ) (hα : 0 < α) {R : List (List Bool)} {known : List Edge}
    (hR : buildRemovable (builtStruct N.vars (N.vars.map N.card) es) N.vars.length known = .ok R) (hknown : ∀ e ∈ known, e ∈ N.edges)
    (hcand : ∀ n ∈ N.vars, ∃ q ∈ N.vars, q ≠ n ∧ (q, n) ∉ known) {K : Nat} (hK : 0 < K) :
    ∃ T₀, ∀ a : SBArgs, SaneArgs a → a.optimizer ≠ "tabu" → a.maxParents = none → a.patience = none → T₀ ≤ a.iterations →
    ∀ {Ω : Type} [MeasurableSpace Ω] (Q : Measure Ω) [IsProbabilityMeasure Q] (X : Label → ℕ → Ω → ℕ),
    (∀ n ∈ N.vars, UniformChoices Q (openParents (builtStruct N.vars (N.vars.map N.card) es) known n).card (X n)) → ∀ drop : Ω → Label → ℕ → ℕ,
    Tendsto (fun m => manyLaw N.vars.length P {ω | ¬ ProbablyRecovers N es τ α R a Q X drop ε (pooledRows net C m K ω)}) atTop (𝓝 0) ∧
    Tendsto (fun T => manyLaw N.vars.length P {ω | ¬ ProbablyRecovers N es τ α R a Q X drop ε (pooledEnd net C T K ω)}) atTop (𝓝 0) := by
  have hirr := irreducible_of_allPositive hOK hpos
  obtain ⟨π, hπ, -⟩ := sample_stationary hD hOK hc hirr
  have hmat : ∀ n ∈ N.vars, ∀ p ∈ N.parents n, ∀ K : List Label, (∀ q ∈ K, q ∈ N.vars) → p ∉ K → n ∉ K → StationaryMatters N N.inverseRates π n K p :=
    (fun n hn p hp K hK hpK hnK => tells_matters hD hOK hc hirr hπ hn hp (by rintro rfl; exact hns _ hn hp) (htell n hn p hp) hK hpK hnK)
  obtain ⟨T₁, h1⟩ := typical_hill_recovered hD hOK (many_typical hD hOK C hc hirr hπ hK) hε hcl hT hc hpos hc2 hcard hns hπ hmat es hτ hα hR hknown hcand
  obtain ⟨T₂, h2⟩ := typical_hill_recovered hD hOK (many_end_typical hD hOK C hc hirr hπ hK) hε hcl hT hc hpos hc2 hcard hns hπ hmat es hτ hα hR hknown hcand
  exact ⟨max T₁ T₂, fun a a1 a2 a3 a4 a5 Ω _ Q _ X hX drop => ⟨h1 a a1 a2 a3 a4 (le_of_max_le_left a5) Q X hX drop, h2 a a1 a2 a3 a4 (le_of_max_le_right a5) Q X hX drop⟩⟩

end

/-! ## Non-vacuity -/

namespace Demo

/-- C208: from ten long trajectories of `X → Y`. -/
example {ε : ℝ} (hε : 0 < ε) : Tendsto (fun m => manyLaw 2 (Measure.infinitePi choiceLaw) {ω |
      ε ≤ |((rawTransitions ["X", "Y"] (pooledRows pairNet someCategorical m 10 ω) "Y" [] 0 1 [] : ℝ) + 1)
        / ((rawResidence ["X", "Y"] (pooledRows pairNet someCategorical m 10 ω) "Y" [] 0 [] : ℝ) + 1) - 13 / 9|}) atTop (𝓝 0) := by
  have h := (many_estimate_limit pair_describes pair_ok someCategorical pair_conservative pair_irreducible pair_stationary (v := "Y") (by decide) (L := []) (by simp)
    (x := 0) (y := 1) (by decide) (by decide) [] (by rw [pair_share]; norm_num) (K := 10) (by norm_num) hε).1
  rw [pair_share, pair_flux, show (13 : ℝ) / 22 / (9 / 22) = 13 / 9 by norm_num] at h
  exact h

example : Tendsto (fun m => manyLaw 2 (Measure.infinitePi choiceLaw)
      {ω | ¬ Recovers pairCtbn [] 1 1 [[true, true], [true, true]] defaultArgs (pooledRows pairNet someCategorical m 10 ω)}) atTop (𝓝 0) :=
  (many_network_recovered pair_describes pair_ok someCategorical (by unfold NoSuffixClash; decide) (by decide) pair_conservative pair_allPositive (le_refl 2) (fun _ _ => rfl) (by decide)
    pair_parents_tell [] one_pos one_pos (known := []) rfl (by simp) (by decide) rfl rfl (by simp [defaultArgs]) (by simp [defaultArgs]) (by simp [defaultArgs]) (by decide) (by norm_num)).1

example : Tendsto (fun T => manyLaw 2 (Measure.infinitePi choiceLaw)
      {ω | ¬ KeepsEdges pairCtbn [] tightParams [] (pooledEnd pairNet someCategorical T 10 ω)}) atTop (𝓝 0) :=
  (many_edges_kept pair_describes pair_ok someCategorical (by unfold NoSuffixClash; decide) (by decide) pair_conservative pair_allPositive (by norm_num) (fun _ _ => rfl)
    (by decide) pair_parents_tell [] (tight_tightens 2) [] (by norm_num)).2

example : ∃ T₀, ∀ I, T₀ ≤ I → ∃ Q : Measure (ℕ → ℕ), IsProbabilityMeasure Q ∧
    Tendsto (fun m => manyLaw 2 (Measure.infinitePi choiceLaw) {ω | ¬ ProbablyRecovers pairCtbn [] 1 1 [[true, true], [true, true]] ⟨none, I, none, none, none, "hill"⟩
      Q (fun _ i ω => ω i) (fun _ _ _ => 0) (1 / 100) (pooledRows pairNet someCategorical m 10 ω)}) atTop (𝓝 0) := by
  obtain ⟨T₀, h⟩ := many_hill_recovered pair_describes pair_ok someCategorical (ε := 1 / 100) (by norm_num) (by unfold NoSuffixClash; decide) (by decide)
    pair_conservative pair_allPositive (le_refl 2) (fun _ _ => rfl) (by decide) pair_parents_tell [] one_pos one_pos (R := [[true, true], [true, true]]) (known := [])
    rfl (by simp) (by decide) (K := 10) (by norm_num)
  refine ⟨T₀, fun I hI => ?_⟩
  obtain ⟨P, p1, p2⟩ := uniform_choices_exist 1 (by norm_num)
  refine ⟨P, p1, (h ⟨none, I, none, none, none, "hill"⟩ ⟨by simp, by simp, by simp⟩ (show ("hill" : String) ≠ "tabu" by decide) rfl rfl hI P _ (fun n hn => ?_) _).1⟩
  rw [(show ∀ n ∈ pairCtbn.vars, (openParents (builtStruct pairCtbn.vars (pairCtbn.vars.map pairCtbn.card) []) [] n).card = 1 by decide) n hn]
  exact p2

end Demo

end

end PyCTBN
