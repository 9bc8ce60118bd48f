import Verif.Props.HillProb
import Verif.Props.LocalOpt
import Verif.Props.ScoreGrowth
import Verif.Props.CtpcDemo
import Mathlib.Analysis.SpecificLimits.Normed
import Mathlib.Probability.Independence.InfinitePi
import Mathlib.Probability.Distributions.Uniform

/-!
# C188, C189: networks estimated by hill climbing with random draws
-/

namespace PyCTBN
open Spec SearchEnv MeasureTheory ProbabilityTheory Filter

namespace Spec

/-- Some edge that is not prior knowledge could be removed from the network or added to it so as to increase the marginal likelihood of its child. -/
def Improvable (s : Structure) (t : Trajectory) (c : Nat) (tau alpha : ℝ) (known : List Edge) (es : Finset Edge) : Prop :=
  ∃ n ∈ s.labels, ∃ p ∈ s.labels, p ≠ n ∧ (p, n) ∉ known ∧
    let P := (es.filter (fun x => x.2 = n)).image Prod.fst
    ((p, n) ∈ es ∧ likelihood s t c tau alpha n P < likelihood s t c tau alpha n (P.erase p) ∨
     (p, n) ∉ es ∧ likelihood s t c tau alpha n P < likelihood s t c tau alpha n (insert p P))

/-- The variables whose edge into `n` is neither known nor a self-loop. -/
def openParents (s : Structure) (known : List Edge) (n : Label) : Finset Label :=
  s.labels.toFinset.filter (fun p => p ≠ n ∧ (p, n) ∉ known)

end Spec

theorem candidates_eq_open {S : Type} (E : SearchEnv S) (known : List Edge) (n : Label) : candidates E known n = openParents E.struct known n := by
  ext p
  unfold candidates openParents parentsIn
  simp only [Finset.mem_sdiff, Finset.mem_erase, List.mem_toFinset, Finset.mem_filter, List.mem_map, List.mem_filter, decide_eq_true_eq]
  constructor
  · rintro ⟨⟨h1, h2⟩, h3⟩
    exact ⟨h2, h1, fun hk => h3 ⟨(p, n), ⟨hk, rfl⟩, rfl⟩⟩
  · rintro ⟨h2, h1, h3⟩
    refine ⟨⟨h1, h2⟩, ?_⟩
    rintro ⟨⟨x, y⟩, ⟨h4, h5⟩, h6⟩
    simp only at h5 h6
    subst h5 h6
    exact h3 h4

/-- More candidates are missed more easily. -/
theorem miss_mono {N D : ℕ} (h : N ≤ D) (L : ℕ) : (N : ℝ) * (1 - 1 / N) ^ L ≤ D * (1 - 1 / D) ^ L := by
  rcases Nat.eq_zero_or_pos N with rfl | hN
  · simp only [Nat.cast_zero, zero_mul]
    rcases Nat.eq_zero_or_pos D with rfl | hD
    · simp
    · have h1 : (1 : ℝ) ≤ D := by exact_mod_cast hD
      have : (0 : ℝ) ≤ 1 - 1 / D := by rw [sub_nonneg, div_le_one (by linarith)]; exact h1
      positivity
  · have h1 : (1 : ℝ) ≤ N := by exact_mod_cast hN
    have h2 : (N : ℝ) ≤ D := by exact_mod_cast h
    have h3 : (0 : ℝ) ≤ 1 - 1 / N := by rw [sub_nonneg, div_le_one (by linarith)]; exact h1
    have h4 : (1 : ℝ) - 1 / N ≤ 1 - 1 / D := by
      have := one_div_le_one_div_of_le (by linarith) h2
      linarith
    exact mul_le_mul h2 (pow_le_pow_left₀ h3 h4 L) (by positivity) (by linarith)

section
variable {s : Structure} {t : Trajectory} {c : Nat} {tau alpha : ℝ} {R : List (List Bool)} {known : List Edge} {a : SBArgs}
  {Ω : Type*} [MeasurableSpace Ω] {P : Measure Ω} [IsProbabilityMeasure P]

/-- C188.  All variables have the same number `c ≥ 2` of states, hyperparameters are positive, and `estimate_structure` runs hill climbing without limit on the
parents, drawing candidates independently and uniformly (draws for different variables may depend on each other), with patience unset or at least `L - 1`
and at least `L · 2^(M-1)` iterations for `M` variables.  Then the probability that it returns a network that one edge could be added to or removed from so as to
increase the marginal likelihood is at most `M · iterations · (M-1) · (1 - 1/(M-1))^L`. -/
theorem hill_estimate_misses_optimum_rarely (hU : UniformData s.cleanEdges t c) (hc : 2 ≤ c) (hτ : 0 < tau) (hα : 0 < alpha)
    (hK : KnownEdges (sbEnv s.cleanEdges t tau alpha R) known) (hopt : a.optimizer ≠ "tabu") (hmp : a.maxParents = none)
    {L : ℕ} (hL : 0 < L) (hpat : ∀ m, a.patience = some m → (L : ℤ) ≤ m + 1) (hit : L * 2 ^ (s.labels.length - 1) ≤ a.iterations)
    {X : Label → ℕ → Ω → ℕ} (hX : ∀ n ∈ s.labels, UniformChoices P (openParents s known n).card (X n)) (drop : Ω → Label → ℕ → ℕ) :
    P.real {ω | ∃ (complete : DiGraph) (order : Option (List Label)) (es : Finset Edge) (rep : Option (ℚ × ℚ)) (e' : Estimator),
      (∀ o, order = some o → o.Perm s.labels) ∧
      estimateStructure (famScoreOn t tau alpha) R ⟨s, complete⟩ a order (fun n i => X n i ω) (drop ω) = (.ok (es, rep), e') ∧
      Improvable s.cleanEdges t c tau alpha known es} ≤
      s.labels.length * (a.iterations * ((s.labels.length - 1 : ℕ) * (1 - 1 / (s.labels.length - 1 : ℕ)) ^ L)) := by
  have hE : SearchReady (sbEnv s.cleanEdges t tau alpha R) := ⟨hU.wf, rfl⟩
  have hcand : ∀ n, candidates (sbEnv s.cleanEdges t tau alpha R) known n = openParents s known n := fun n => candidates_eq_open _ _ _
  have hcard : ∀ n ∈ s.labels, (openParents s known n).card ≤ s.labels.length - 1 := by
    intro n hn
    rw [← hcand]
    unfold candidates
    refine (Finset.card_le_card Finset.sdiff_subset).trans ?_
    show (s.labels.toFinset.erase n).card ≤ _
    rw [Finset.card_erase_of_mem (List.mem_toFinset.2 hn)]
    exact Nat.sub_le_sub_right (List.toFinset_card_le _) 1
  have hsub : {ω | ∃ (complete : DiGraph) (order : Option (List Label)) (es : Finset Edge) (rep : Option (ℚ × ℚ)) (e' : Estimator),
      (∀ o, order = some o → o.Perm s.labels) ∧
      estimateStructure (famScoreOn t tau alpha) R ⟨s, complete⟩ a order (fun n i => X n i ω) (drop ω) = (.ok (es, rep), e') ∧
      Improvable s.cleanEdges t c tau alpha known es} ⊆
      ⋃ n ∈ s.labels.toFinset, {ω | ∃ es log, (sbEnv s.cleanEdges t tau alpha R).hill n none a.iterations a.patience (fun i => X n i ω) (drop ω n) = .ok (es, log) ∧
      ¬ ∃ b, LocalOptimum (scoreOfParents s.cleanEdges t tau alpha n) none (candidates (sbEnv s.cleanEdges t tau alpha R) known n) (parentsIn es n) b} := by
    rintro ω ⟨complete, order, es, rep, e', ho, h, n, hn, p, hp, hpn, hk, hbad⟩
    simp only [Set.mem_iUnion, List.mem_toFinset]
    refine ⟨n, hn, ?_⟩
    by_contra hgood
    have hloc := estimate_local_optimum hU hc hτ hα hK ho h hn hp hpn hk (fun r hr => by
      by_contra hno
      refine hgood ?_
      unfold estimateParents at hr
      rw [if_neg hopt, hmp] at hr
      cases hh : (sbEnv s.cleanEdges t tau alpha R).hill n none a.iterations a.patience (fun i => X n i ω) (drop ω n) with
      | error x => rw [hh] at hr; simp at hr
      | ok o =>
        rw [hh] at hr
        simp only [Except.bind_ok', pure, Except.pure, Except.ok.injEq] at hr
        exact ⟨o.1, o.2, hh, by rw [hr]; exact hno⟩)
    rcases hbad with ⟨h1, h2⟩ | ⟨h1, h2⟩
    · exact absurd (hloc.1 h1) (not_le.2 h2)
    · exact absurd (hloc.2 h1) (not_le.2 h2)
  refine (measureReal_mono hsub (measure_ne_top _ _)).trans ((measureReal_biUnion_finset_le _ _).trans ?_)
  refine (Finset.sum_le_card_nsmul _ _ ((a.iterations : ℝ) * ((s.labels.length - 1 : ℕ) * (1 - 1 / ((s.labels.length - 1 : ℕ) : ℝ)) ^ L)) (fun n hn => ?_)).trans ?_
  · rw [List.mem_toFinset] at hn
    refine (hill_misses_optimum_rarely hE hK (famscore_of_parent_set hU.wf rfl t tau alpha R hn) (by rw [hcand]) hL hpat ?_ (hX n hn) (fun ω => drop ω n)).trans ?_
    · exact (Nat.mul_le_mul_left L (Nat.pow_le_pow_right (by norm_num) (hcard n hn))).trans hit
    · exact mul_le_mul_of_nonneg_left (miss_mono (hcard n hn) L) (by positivity)
  · rw [nsmul_eq_mul, List.toFinset_card_of_nodup (show s.labels.Nodup from hU.wf.nodup)]

/-- Without patience the bound vanishes as the number of iterations grows. -/
theorem miss_bound_vanishes (M : ℕ) {ε : ℝ} (hε : 0 < ε) :
    ∃ T₀ : ℕ, ∀ T : ℕ, T₀ ≤ T → 0 < T / 2 ^ (M - 1) ∧ (M : ℝ) * (T * ((M - 1 : ℕ) * (1 - 1 / ((M - 1 : ℕ) : ℝ)) ^ (T / 2 ^ (M - 1)))) ≤ ε := by
  set D := M - 1
  set B := 2 ^ D
  have hB : 0 < B := by positivity
  have hdiv : Tendsto (fun T : ℕ => T / B) atTop atTop := Nat.tendsto_div_const_atTop hB.ne'
  have hpos : ∀ᶠ T : ℕ in atTop, 0 < T / B := hdiv.eventually_gt_atTop 0
  have hlim : ∀ᶠ T : ℕ in atTop, (M : ℝ) * (T * (D * (1 - 1 / (D : ℝ)) ^ (T / B))) ≤ ε := by
    rcases Nat.eq_zero_or_pos D with hD | hD
    · filter_upwards with T
      rw [hD]; simp [hε.le]
    · have h1 : (1 : ℝ) ≤ D := by exact_mod_cast hD
      have h0 : (0 : ℝ) ≤ 1 - 1 / D := by rw [sub_nonneg, div_le_one (by linarith)]; exact h1
      have h2 : (1 : ℝ) - 1 / D < 1 := by have : (0 : ℝ) < 1 / D := by positivity
                                          linarith
      have hg : Tendsto (fun L : ℕ => ((M : ℝ) * B * D) * ((L : ℝ) * (1 - 1 / (D : ℝ)) ^ L + (1 - 1 / (D : ℝ)) ^ L)) atTop (nhds (((M : ℝ) * B * D) * (0 + 0))) :=
        ((tendsto_self_mul_const_pow_of_lt_one h0 h2).add (tendsto_pow_atTop_nhds_zero_of_lt_one h0 h2)).const_mul _
      rw [add_zero, mul_zero] at hg
      filter_upwards [(hg.comp hdiv).eventually (eventually_le_nhds hε)] with T hT
      refine le_trans ?_ hT
      simp only [Function.comp]
      have hT' : (T : ℝ) ≤ B * ((T / B : ℕ) + 1) := by
        have := (Nat.lt_mul_div_succ T hB).le
        exact_mod_cast this
      have hq : (0 : ℝ) ≤ (1 - 1 / (D : ℝ)) ^ (T / B) := pow_nonneg h0 _
      calc (M : ℝ) * (T * (D * (1 - 1 / (D : ℝ)) ^ (T / B)))
          ≤ (M : ℝ) * ((B * ((T / B : ℕ) + 1)) * (D * (1 - 1 / (D : ℝ)) ^ (T / B))) := by gcongr
        _ = _ := by ring
  obtain ⟨T₀, h⟩ := eventually_atTop.1 (hpos.and hlim)
  exact ⟨T₀, fun T hT => h T hT⟩

/-- C188 (limit).  With patience unset, for every number of variables and every `ε > 0` there is a number of iterations from which on the probability is at most `ε`,
whatever the data, the prior knowledge and the hyperparameters. -/
theorem hill_estimate_optimal_in_the_limit (M : ℕ) {ε : ℝ} (hε : 0 < ε) : ∃ T₀ : ℕ, ∀ (s : Structure) (t : Trajectory) (c : Nat) (tau alpha : ℝ) (R : List (List Bool))
    (known : List Edge) (a : SBArgs), s.labels.length = M → UniformData s.cleanEdges t c → 2 ≤ c → 0 < tau → 0 < alpha →
    KnownEdges (sbEnv s.cleanEdges t tau alpha R) known → a.optimizer ≠ "tabu" → a.maxParents = none → a.patience = none → T₀ ≤ a.iterations →
    ∀ {Ω : Type} [MeasurableSpace Ω] (P : Measure Ω) [IsProbabilityMeasure P] (X : Label → ℕ → Ω → ℕ),
    (∀ n ∈ s.labels, UniformChoices P (openParents s known n).card (X n)) → ∀ drop : Ω → Label → ℕ → ℕ,
    P.real {ω | ∃ (complete : DiGraph) (order : Option (List Label)) (es : Finset Edge) (rep : Option (ℚ × ℚ)) (e' : Estimator),
      (∀ o, order = some o → o.Perm s.labels) ∧
      estimateStructure (famScoreOn t tau alpha) R ⟨s, complete⟩ a order (fun n i => X n i ω) (drop ω) = (.ok (es, rep), e') ∧
      Improvable s.cleanEdges t c tau alpha known es} ≤ ε := by
  obtain ⟨T₀, hT₀⟩ := miss_bound_vanishes M hε
  refine ⟨T₀, fun s t c tau alpha R known a hM hU hc hτ hα hK hopt hmp hpat hit Ω _ P _ X hX drop => ?_⟩
  obtain ⟨h1, h2⟩ := hT₀ a.iterations hit
  subst hM
  exact (hill_estimate_misses_optimum_rarely hU hc hτ hα hK hopt hmp h1 (by rw [hpat]; simp) (Nat.div_mul_le_self _ _) hX drop).trans h2

end

/-! ## C189 -/

section
variable {s : Structure} {c : Nat} {N : ℕ → ℝ} {ts : ℕ → Trajectory}

/-- C189.  Growing data and enough iterations reveal every true parent to hill climbing with high probability: as C169 for data that settle and a parent `p` of `n` that
matters in the long run whatever other parents are taken into account.  For every `ε > 0` there are a number of iterations `T₀` and a point from which on, with at
least `T₀` iterations, the probability that the network returned lacks the edge from `p` to `n` is at most `ε`. -/
theorem hill_true_parents_eventually_found (hU : ∀ k, UniformData s.cleanEdges (ts k) c) (hpos : ∀ k, ∀ d ∈ (ts k).times, 0 < d) (hc : 2 ≤ c) {τ α : ℝ} (hτ : 0 < τ)
    (hα : 0 < α) (hN : Tendsto N atTop atTop) {R : List (List Bool)} {known : List Edge} (hK : KnownEdges (sbEnv s.cleanEdges (ts 0) τ α R) known)
    {n p : Label} (hn : n ∈ s.labels) (hp : p ∈ s.labels) (hpn : p ≠ n) (hkn : (p, n) ∉ known)
    (hdep : ∀ K : List Label, (∀ q ∈ K, q ∈ s.labels) → p ∉ K → n ∉ K → BehaviourSettles s N ts n c K p ∧ MattersInTheLongRun s N ts n c K p)
    {ε : ℝ} (hε : 0 < ε) : ∃ T₀ k₀, ∀ a : SBArgs, a.optimizer ≠ "tabu" → a.maxParents = none → a.patience = none → T₀ ≤ a.iterations → ∀ k, k₀ ≤ k →
    ∀ {Ω : Type} [MeasurableSpace Ω] (P : Measure Ω) [IsProbabilityMeasure P] (X : Label → ℕ → Ω → ℕ),
    (∀ n ∈ s.labels, UniformChoices P (openParents s known n).card (X n)) → ∀ drop : Ω → Label → ℕ → ℕ,
    P.real {ω | ∃ (complete : DiGraph) (order : Option (List Label)) (es : Finset Edge) (rep : Option (ℚ × ℚ)) (e' : Estimator),
      (∀ o, order = some o → o.Perm s.labels) ∧
      estimateStructure (famScoreOn (ts k) τ α) R ⟨s, complete⟩ a order (fun n i => X n i ω) (drop ω) = (.ok (es, rep), e') ∧ (p, n) ∉ es} ≤ ε := by
  obtain ⟨T₀, hT₀⟩ := hill_estimate_optimal_in_the_limit s.labels.length hε
  obtain ⟨k₀, hk₀⟩ := likelihood_eventually_prefers (fun K h1 h2 h3 => likelihood_growth hU hpos hc hτ hα hN hp h2 (hdep K h1 h2 h3).1 (hdep K h1 h2 h3).2)
  have hK : ∀ k, KnownEdges (sbEnv s.cleanEdges (ts k) τ α R) known := fun _ => known_data hK
  refine ⟨T₀, k₀, fun a hopt hmp hpat hit k hk Ω _ P _ X hX drop => ?_⟩
  refine (measureReal_mono (fun ω hω => ?_) (measure_ne_top _ _)).trans
    (hT₀ s (ts k) c τ α R known a rfl (hU k) hc hτ hα (hK k) hopt hmp hpat hit P X hX drop)
  obtain ⟨complete, order, es, rep, e', ho, h, hout⟩ := hω
  refine ⟨complete, order, es, rep, e', ho, h, n, hn, p, hp, hpn, hkn, Or.inr ⟨hout, hk₀ k hk es (fun q hq => ?_) hout⟩⟩
  have hws : WFStructure s := ⟨(hU 0).wf.nodup, (hU 0).wf.idxLen, (hU 0).wf.valLen⟩
  have := (estimate_well_formed (e := ⟨s, complete⟩) hws (hK k) ho h).1 _ hq
  exact ⟨this.1, this.2.2⟩

end

/-! ## Cases -/

namespace Demo

/-- Independent uniform choices among `N` exist. -/
theorem uniform_choices_exist (N : ℕ) (hN : 0 < N) : ∃ P : Measure (ℕ → ℕ), IsProbabilityMeasure P ∧ UniformChoices P N (fun i ω => ω i) := by
  have hne : (Finset.range N).Nonempty := ⟨0, Finset.mem_range.2 hN⟩
  let μ : Measure ℕ := (PMF.uniformOfFinset (Finset.range N) hne).toMeasure
  haveI : IsProbabilityMeasure μ := PMF.toMeasure.isProbabilityMeasure _
  refine ⟨Measure.infinitePi (fun _ => μ), inferInstance, fun i r hr => ?_, ?_⟩
  · have h1 : (Measure.infinitePi (fun _ : ℕ => μ)).map (fun ω => ω i) = μ := Measure.infinitePi_map_eval (fun _ => μ) i
    have h2 : (Measure.infinitePi (fun _ : ℕ => μ)).real {ω | ω i % N = r} = μ.real {m | m % N = r} := by
      conv_rhs => rw [← h1, map_measureReal_apply (measurable_pi_apply i) MeasurableSet.of_discrete]
      rfl
    rw [h2, measureReal_def]
    have h3 : μ {m | m % N = r} = (PMF.uniformOfFinset (Finset.range N) hne).toMeasure {m | m % N = r} := rfl
    rw [h3, PMF.toMeasure_uniformOfFinset_apply _ _ MeasurableSet.of_discrete]
    classical
    have h4 : (Finset.filter (fun x => x ∈ {m | m % N = r}) (Finset.range N)) = {r} := by
      ext m
      simp only [Finset.mem_filter, Finset.mem_range, Set.mem_ofPred_eq, Finset.mem_singleton]
      constructor
      · rintro ⟨h1, h2⟩; rw [Nat.mod_eq_of_lt h1] at h2; exact h2
      · rintro rfl; exact ⟨hr, Nat.mod_eq_of_lt hr⟩
    have h5 : ∀ inst : DecidablePred (fun x => x ∈ {m | m % N = r}), (@Finset.filter ℕ (fun x => x ∈ {m | m % N = r}) inst (Finset.range N)).card = 1 := by
      intro inst
      rw [Finset.card_eq_one]
      exact ⟨r, by convert h4⟩
    rw [h5]
    simp
  · exact iIndepFun_infinitePi (P := fun _ : ℕ => μ) (X := fun _ m => m % N) (fun _ => by fun_prop)

/-- The probability of a run of draws that hides the improvement is positive: `(1/3)^iterations` at least. -/
theorem all_zero {Ω : Type*} [MeasurableSpace Ω] {P : Measure Ω} [IsProbabilityMeasure P] {N : ℕ} (hN : 0 < N) {X : ℕ → Ω → ℕ} (h : UniformChoices P N X) (T : ℕ) :
    P.real {ω | ∀ j < T, X j ω % N = 0} = (1 / N) ^ T := by
  have hset : {ω | ∀ j < T, X j ω % N = 0} = ⋂ j ∈ Finset.range T, (fun ω => X j ω % N) ⁻¹' {0} := by
    ext ω
    simp
  have hmul := h.indep.measure_inter_preimage_eq_mul (Finset.range T) (sets := fun _ => {0}) (fun _ _ => MeasurableSet.of_discrete)
  rw [hset, measureReal_def, hmul, ENNReal.toReal_prod]
  refine (Finset.prod_congr rfl (fun j _ => h.uniform j 0 hN)).trans ?_
  rw [Finset.prod_const, Finset.card_range]

end Demo

/-- C187 (not zero).  Hill climbing is never certain to end in a local optimum: for a score on three candidates, whatever the patience, the probability of missing it
is at least `(1/3)^iterations`. -/
theorem hill_misses_optimum_possibly (iterations : ℕ) (patience : Option ℤ) {Ω : Type*} [MeasurableSpace Ω] {P : Measure Ω} [IsProbabilityMeasure P]
    {X : ℕ → Ω → ℕ} (hX : UniformChoices P 3 X) (drop : Ω → ℕ → ℕ) :
    (1 / 3 : ℝ) ^ iterations ≤ P.real {ω | ∃ es log, walkDemo.hill "X" none iterations patience (fun i => X i ω) (drop ω) = .ok (es, log) ∧
      ¬ ∃ b, LocalOptimum (fun ps => .ok (if "Z" ∈ ps then (1 : ℤ) else 0)) none (candidates walkDemo [] "X") (parentsIn es "X") b} := by
  have := Demo.all_zero (by norm_num) hX iterations
  push_cast at this
  rw [← this]
  exact measureReal_mono (fun ω hω => hill_misses_optimum_of iterations patience (drop ω) hω) (measure_ne_top _ _)

/-- The hypotheses of C187 and its bounds on a case: three candidates, 400 iterations, patience unset, `L = 50`. -/
example : ∃ P : Measure (ℕ → ℕ), IsProbabilityMeasure P ∧ UniformChoices P 3 (fun i ω => ω i) ∧
    P.real {ω | ∃ es log, walkDemo.hill "X" none 400 none ω (fun _ => 0) = .ok (es, log) ∧
      ¬ ∃ b, LocalOptimum (fun ps => .ok (if "Z" ∈ ps then (1 : ℤ) else 0)) none (candidates walkDemo [] "X") (parentsIn es "X") b} ≤ 1 / 500000 := by
  obtain ⟨P, h1, h2⟩ := Demo.uniform_choices_exist 3 (by norm_num)
  refine ⟨P, h1, h2, ?_⟩
  refine (hill_misses_optimum_rarely walkDemo_ready.1 walkDemo_ready.2 walkDemo_score (N := 3) (L := 50) (by decide) (by norm_num) (by simp) (by norm_num) h2
    (fun _ _ => 0)).trans ?_
  norm_num

namespace Demo

theorem struct3_uniform : UniformData struct3.cleanEdges data 2 where
  wf := ⟨by decide, rfl, rfl⟩
  data := dataOK_of_check _ _ ⟨by decide, rfl, rfl⟩ rfl rfl (by decide) (by decide) (by decide)
  cards := by decide
  times := by decide

theorem struct3_known : KnownEdges (sbEnv struct3.cleanEdges data 1 1 allTrue) [] := ⟨by decide, by rfl, by simp⟩

/-- The hypotheses of C188 and its bound on a case: three binary variables, 120 iterations, `L = 30`. -/
example : ∃ P : Measure (ℕ → ℕ), IsProbabilityMeasure P ∧ (∀ n ∈ struct3.labels, UniformChoices P (openParents struct3 [] n).card (fun i ω => ω i)) ∧
    P.real {ω | ∃ (complete : DiGraph) (order : Option (List Label)) (es : Finset Edge) (rep : Option (ℚ × ℚ)) (e' : Estimator),
      (∀ o, order = some o → o.Perm struct3.labels) ∧
      estimateStructure (famScoreOn data 1 1) allTrue ⟨struct3, complete⟩ ⟨none, 120, none, none, none, "hill"⟩ order (fun _ i => ω i) (fun _ _ => 0) = (.ok (es, rep), e') ∧
      Improvable struct3.cleanEdges data 2 1 1 [] es} ≤ 1 / 1000000 := by
  obtain ⟨P, h1, h2⟩ := uniform_choices_exist 2 (by norm_num)
  have h3 : ∀ n ∈ struct3.labels, (openParents struct3 [] n).card = 2 := by decide
  have h4 : ∀ n ∈ struct3.labels, UniformChoices P (openParents struct3 [] n).card (fun i (ω : ℕ → ℕ) => ω i) := fun n hn => by rw [h3 n hn]; exact h2
  refine ⟨P, h1, h4, ?_⟩
  refine (hill_estimate_misses_optimum_rarely (s := struct3) (t := data) (a := ⟨none, 120, none, none, none, "hill"⟩) (L := 30) struct3_uniform (le_refl 2) one_pos one_pos
    struct3_known (by decide) rfl (by norm_num) (by simp) (by decide) h4 (fun _ _ _ => 0)).trans ?_
  have : struct3.labels.length = 3 := rfl
  rw [this]
  norm_num

/-- The hypotheses of C189 are met by more and more copies of `exT2`. -/
example {ε : ℝ} (hε : 0 < ε) : ∃ T₀ k₀, ∀ a : SBArgs, a.optimizer ≠ "tabu" → a.maxParents = none → a.patience = none → T₀ ≤ a.iterations → ∀ k, k₀ ≤ k →
    ∃ P : Measure (ℕ → ℕ), IsProbabilityMeasure P ∧
    P.real {ω | ∃ (complete : DiGraph) (order : Option (List Label)) (es : Finset Edge) (rep : Option (ℚ × ℚ)) (e' : Estimator),
      (∀ o, order = some o → o.Perm exS2.labels) ∧
      estimateStructure (famScoreOn (repeated exT2 k) 1 1) [[true, true], [true, true]] ⟨exS2, complete⟩ a order (fun _ i => ω i) (fun _ _ => 0) = (.ok (es, rep), e') ∧
      ("Y", "X") ∉ es} ≤ ε := by
  obtain ⟨T₀, k₀, h⟩ := hill_true_parents_eventually_found (s := exS2) (ts := repeated exT2) (R := [[true, true], [true, true]]) (known := [])
    (n := "X") (p := "Y") (N := fun k => (k : ℝ)) (uniform_repeated exU)
    (fun k d hd => by
      obtain ⟨l, hl, hd⟩ := List.mem_flatten.1 hd
      rw [(List.mem_replicate.1 hl).2] at hd
      exact (show ∀ d ∈ exT2.times, 0 < d by decide +kernel) d hd) (le_refl 2) one_pos one_pos tendsto_natCast_atTop_atTop (known_data exU_known)
    (by decide) (by decide) (by decide) (by simp)
    (fun K hK h1 h2 => by
      have : K = [] := by
        cases K with
        | nil => rfl
        | cons q K =>
          have hq : q = "X" ∨ q = "Y" := by simpa [exS2] using hK q (by simp)
          rcases hq with rfl | rfl <;> simp at h1 h2
      subst this
      exact ⟨(repeated_behaves exU "X" [] "Y").1, (repeated_behaves exU "X" [] "Y").2 exT2_matters⟩) hε
  refine ⟨T₀, k₀, fun a h1 h2 h3 h4 k hk => ?_⟩
  obtain ⟨P, p1, p2⟩ := uniform_choices_exist 1 (by norm_num)
  refine ⟨P, p1, h a h1 h2 h3 h4 k hk P _ (fun n hn => ?_) (fun _ _ _ => 0)⟩
  rw [(show ∀ n ∈ exS2.labels, (openParents exS2 [] n).card = 1 by decide) n hn]
  exact p2

end Demo

end PyCTBN
