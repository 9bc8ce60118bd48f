import Verif.Props.SampleRecovery

/-!
# Hill climbing recovers the network with high probability (C199, C200)
-/

open MeasureTheory ProbabilityTheory Filter
open scoped ENNReal Topology

namespace PyCTBN
open Spec SearchEnv JumpPaths

noncomputable section

section
variable {s : Structure} {c : Nat} {N : ℕ → ℝ} {ts : ℕ → Trajectory}

/-- **C199** Enough data and iterations reveal the network to hill climbing with high probability.  As C194: as the data grow, every true parent matters to its child whatever other
variables are taken into account, and every other variable is superfluous once the true parents are.  For every `ε > 0` there are a number of iterations and a point from
which on, with at least so many iterations, the probability that a network is returned that does not have exactly the edges of `truth` is at most `ε`. -/
theorem hill_network_eventually_recovered (hU : ∀ k, UniformData s.cleanEdges (ts k) c) (hc : 2 ≤ c) {τ α : ℝ} (hτ : 0 < τ)
    (hα : 0 < α) (hN : Tendsto N atTop atTop) {R : List (List Bool)} {known : List Edge} (hK : KnownEdges (sbEnv s.cleanEdges (ts 0) τ α R) known) {truth : Finset Edge}
    (hlab : ∀ e ∈ truth, e.1 ∈ s.labels ∧ e.2 ∈ s.labels ∧ e.1 ≠ e.2) (hsub : ∀ e ∈ known, e ∈ truth)
    (htrue : ∀ p n, (p, n) ∈ truth → ∀ K : List Label, (∀ q ∈ K, q ∈ s.labels) → p ∉ K → n ∉ K →
      OccursInTheLongRun s N ts n c K p ∧ MattersInTheLongRun s N ts n c K p)
    (hfalse : ∀ p n, p ∈ s.labels → n ∈ s.labels → p ≠ n → (p, n) ∉ truth → ∀ K : List Label, (∀ q ∈ K, q ∈ s.labels) → p ∉ K → n ∉ K →
      (∀ q, (q, n) ∈ truth → q ∈ K) → SuperfluousInTheLongRun s N ts n c K p)
    {ε : ℝ} (hε : 0 < ε) : ∃ T₀ k₀, ∀ a : SBArgs, a.optimizer ≠ "tabu" → a.maxParents = none → a.patience = none → T₀ ≤ a.iterations → ∀ k, k₀ ≤ k →
    ∀ {Ω : Type} [MeasurableSpace Ω] (P : Measure Ω) [IsProbabilityMeasure P] (X : Label → ℕ → Ω → ℕ),
    (∀ n ∈ s.labels, UniformChoices P (openParents s known n).card (X n)) → ∀ drop : Ω → Label → ℕ → ℕ,
    P.real {ω | ∃ (complete : DiGraph) (order : Option (List Label)) (es : Finset Edge) (rep : Option (ℚ × ℚ)) (e' : Estimator),
      (∀ o, order = some o → o.Perm s.labels) ∧
      estimateStructure (famScoreOn (ts k) τ α) R ⟨s, complete⟩ a order (fun n i => X n i ω) (drop ω) = (.ok (es, rep), e') ∧ es ≠ truth} ≤ ε := by
  obtain ⟨T₀, hT₀⟩ := hill_estimate_optimal_in_the_limit s.labels.length hε
  obtain ⟨k₀, hk₀⟩ := unimprovable_eventually_truth hU hc hτ hα hN hlab hsub htrue hfalse
  have hK : ∀ k, KnownEdges (sbEnv s.cleanEdges (ts k) τ α R) known := fun _ => known_data hK
  refine ⟨T₀, k₀, fun a hopt hmp hpat hit k hk Ω _ P _ X hX drop => ?_⟩
  refine (measureReal_mono (fun ω hω => ?_) (measure_ne_top _ _)).trans
    (hT₀ s (ts k) c τ α R known a rfl (hU k) hc hτ hα (hK k) hopt hmp hpat hit P X hX drop)
  obtain ⟨complete, order, es, rep, e', ho, h, hne⟩ := hω
  refine ⟨complete, order, es, rep, e', ho, h, ?_⟩
  by_contra himp
  have hws : WFStructure s := ⟨(hU 0).wf.nodup, (hU 0).wf.idxLen, (hU 0).wf.valLen⟩
  exact hne (hk₀ k hk es (estimate_well_formed (e := ⟨s, complete⟩) hws (hK k) ho h).1
    (score_based_keeps_known_partial (e := ⟨s, complete⟩) hws (hK k) ho (by rw [hmp]; simp) h) himp)

end

/-- Importing the rows works, and with probability at least `1 - ε` over the choices of the search, estimating the structure by score returns exactly the edges of the
network, in whatever order the variables are processed. -/
def ProbablyRecovers (N : Ctbn) (es : List Edge) (τ α : ℝ) (R : List (List Bool)) (a : SBArgs) {Ω : Type} [MeasurableSpace Ω] (Q : Measure Ω) (X : Label → ℕ → Ω → ℕ)
    (drop : Ω → Label → ℕ → ℕ) (ε : ℝ) (raws : List RawTraj) : Prop :=
  ∃ (p : SamplePath) (s : Structure) (t : Trajectory), buildFromRaw (raws.map (SampleNet.frame N.vars)) ⟨List.range N.vars.length, N.vars, N.vars.map N.card⟩ es = .ok p ∧
    p.struct = some s ∧ p.trajectories = some t ∧
    Q.real {ω | ¬ ∀ (complete : DiGraph) (order : Option (List Label)), (∀ o, order = some o → o.Perm N.vars) →
      ∃ rep e', estimateStructure (famScoreOn t τ α) R ⟨s, complete⟩ a order (fun n i => X n i ω) (drop ω) = (.ok (N.edges, rep), e')} ≤ ε

section
variable {net : SampleNet} {N : Ctbn} (hD : Describes net N) (hOK : N.OK)
include hD hOK
variable {U : Type} [MeasurableSpace U] {P : Measure U} [IsProbabilityMeasure P] (C : Categorical U P)

omit hD hOK in
/-- If only the edges of the network cannot be improved, hill climbing with enough iterations probably returns them. -/
theorem hill_of_only_truth {ε : ℝ} (hε : 0 < ε) {c : Nat} (hc2 : 2 ≤ c) (hns : ∀ v ∈ N.vars, v ∉ N.parents v) : ∃ T₀, ∀ {es : List Edge} {τ α : ℝ}, 0 < τ → 0 < α →
    ∀ {R : List (List Bool)} {known : List Edge}, buildRemovable (builtStruct N.vars (N.vars.map N.card) es) N.vars.length known = .ok R → (∀ e ∈ known, e ∈ N.edges) →
    (∀ n ∈ N.vars, ∃ q ∈ N.vars, q ≠ n ∧ (q, n) ∉ known) → ∀ a : SBArgs, SaneArgs a → a.optimizer ≠ "tabu" → a.maxParents = none → a.patience = none → T₀ ≤ a.iterations →
    ∀ {Ω : Type} [MeasurableSpace Ω] (Q : Measure Ω) [IsProbabilityMeasure Q] (X : Label → ℕ → Ω → ℕ),
    (∀ n ∈ N.vars, UniformChoices Q (openParents (builtStruct N.vars (N.vars.map N.card) es) known n).card (X n)) → ∀ drop : Ω → Label → ℕ → ℕ,
    ∀ {rows : List RawTraj}, OnlyTruth N es c τ α known rows → ProbablyRecovers N es τ α R a Q X drop ε rows := by
  obtain ⟨T₀, hT₀⟩ := hill_estimate_optimal_in_the_limit N.vars.length hε
  refine ⟨T₀, fun {es τ α} hτ hα {R known} hR hknown hcand a hsane hopt hmp hpat hit Ω _ Q _ X hX drop {rows} h => ?_⟩
  set s := builtStruct N.vars (N.vars.map N.card) es with hs
  have hK := known_built hR hknown hns (τ := τ) (α := α)
  obtain ⟨p, t, p1, p2, p3, hdata, honly⟩ := h
  refine ⟨p, s, t, p1, p2, p3, (measureReal_mono (fun ω' hω => ?_) (measure_ne_top _ _)).trans
    (hT₀ s t c τ α R known a rfl hdata hc2 hτ hα (hK t) hopt hmp hpat hit Q X hX drop)⟩
  simp only [Set.mem_ofPred_eq, not_forall] at hω
  obtain ⟨complete, order, ho, hfail⟩ := hω
  have hws : WFStructure s := ⟨hdata.wf.1, hdata.wf.2, hdata.wf.3⟩
  obtain ⟨es', rep, e', h, -⟩ := score_based_returns_partial (a := a) hdata hc2 hτ hα (hK _) hsane (candidates_built hcand t R τ α) complete ho (fun n i => X n i ω') (drop ω')
  refine ⟨complete, order, es', rep, e', ho, h, ?_⟩
  by_contra himp
  refine hfail ⟨rep, e', ?_⟩
  rw [← honly es' (estimate_well_formed (e := ⟨s, complete⟩) hws (hK t) ho h).1 (score_based_keeps_known_partial (e := ⟨s, complete⟩) hws (hK t) ho (by rw [hmp]; simp) h) himp]
  exact h

/-- Hill climbing recovers the network from typical rows. -/
theorem typical_hill_recovered {Ω' ι : Type} [MeasurableSpace Ω'] {μ : Measure Ω'} {l : Filter ι} {size : ι → ℝ} {k : ℝ} {rows : ι → Ω' → List RawTraj} {π : List Nat → ℝ}
    (hrows : TypicalRows N π μ l size k rows) {ε : ℝ} (hε : 0 < ε) (hcl : NoSuffixClash N.vars) (hT : "Time" ∉ N.vars) (hc : N.Conservative) (hpos : N.AllPositive) {c : Nat} (hc2 : 2 ≤ c)
    (hcard : ∀ v ∈ N.vars, N.card v = c) (hns : ∀ v ∈ N.vars, v ∉ N.parents v) (hπ : Stationary N N.inverseRates π)
    (hmat : ∀ n ∈ N.vars, ∀ p ∈ N.parents n, ∀ K : List Label, (∀ q ∈ K, q ∈ N.vars) → p ∉ K → n ∉ K → StationaryMatters N N.inverseRates π n K p)
    (es : List Edge) {τ α : ℝ} (hτ : 0 < τ) (hα : 0 < α) {R : List (List Bool)} {known : List Edge}
    (hR : buildRemovable (builtStruct N.vars (N.vars.map N.card) es) N.vars.length known = .ok R) (hknown : ∀ e ∈ known, e ∈ N.edges)
    (hcand : ∀ n ∈ N.vars, ∃ q ∈ N.vars, q ≠ n ∧ (q, n) ∉ known) :
    ∃ T₀, ∀ a : SBArgs, SaneArgs a → a.optimizer ≠ "tabu" → a.maxParents = none → a.patience = none → T₀ ≤ a.iterations →
    ∀ {Ω : Type} [MeasurableSpace Ω] (Q : Measure Ω) [IsProbabilityMeasure Q] (X : Label → ℕ → Ω → ℕ),
    (∀ n ∈ N.vars, UniformChoices Q (openParents (builtStruct N.vars (N.vars.map N.card) es) known n).card (X n)) → ∀ drop : Ω → Label → ℕ → ℕ,
    Likely μ l (fun m ω => ProbablyRecovers N es τ α R a Q X drop ε (rows m ω)) := by
  obtain ⟨T₀, hT₀⟩ := hill_of_only_truth (N := N) hε hc2 hns
  exact ⟨T₀, fun a hsane hopt hmp hpat hit Ω _ Q _ X hX drop => (typical_only_truth hD hOK hrows hcl hT hc hpos hc2 hcard hns hπ hmat es hτ hα hknown).mono (.of_forall (fun m ω h =>
    hT₀ hτ hα hR hknown hcand a hsane hopt hmp hpat hit Q X hX drop h))⟩

/-- **C200** Long sampled trajectories and enough iterations reveal the network to hill climbing.  As C195, with hill climbing in place of the tabu search: for every
`ε > 0` there is a number of iterations (depending on the number of variables only) with which the probability that the sampled trajectory does not let the search succeed with probability `1 - ε`
tends to 0. -/
theorem hill_sampled_network_recovered {ε : ℝ} (hε : 0 < ε) (hcl : NoSuffixClash N.vars) (hT : "Time" ∉ N.vars) (hc : N.Conservative) (hpos : N.AllPositive) {c : Nat} (hc2 : 2 ≤ c)
    (hcard : ∀ v ∈ N.vars, N.card v = c) (hns : ∀ v ∈ N.vars, v ∉ N.parents v) {π : List Nat → ℝ} (hπ : Stationary N N.inverseRates π)
    (hmat : ∀ n ∈ N.vars, ∀ p ∈ N.parents n, ∀ K : List Label, (∀ q ∈ K, q ∈ N.vars) → p ∉ K → n ∉ K → StationaryMatters N N.inverseRates π n K p)
    (es : List Edge) {τ α : ℝ} (hτ : 0 < τ) (hα : 0 < α) {R : List (List Bool)} {known : List Edge}
    (hR : buildRemovable (builtStruct N.vars (N.vars.map N.card) es) N.vars.length known = .ok R) (hknown : ∀ e ∈ known, e ∈ N.edges)
    (hcand : ∀ n ∈ N.vars, ∃ q ∈ N.vars, q ≠ n ∧ (q, n) ∉ known) :
    ∃ T₀, ∀ a : SBArgs, SaneArgs a → a.optimizer ≠ "tabu" → a.maxParents = none → a.patience = none → T₀ ≤ a.iterations →
    ∀ {Ω : Type} [MeasurableSpace Ω] (Q : Measure Ω) [IsProbabilityMeasure Q] (X : Label → ℕ → Ω → ℕ),
    (∀ n ∈ N.vars, UniformChoices Q (openParents (builtStruct N.vars (N.vars.map N.card) es) known n).card (X n)) → ∀ drop : Ω → Label → ℕ → ℕ,
    Tendsto (fun m => drawLaw N.vars.length P {ω | ¬ ProbablyRecovers N es τ α R a Q X drop ε [sampledRows net C m ω]}) atTop (𝓝 0) :=
  typical_hill_recovered hD hOK (sampled_typical hD hOK C hc (irreducible_of_allPositive hOK hpos) hπ) hε hcl hT hc hpos hc2 hcard hns hπ hmat es hτ hα hR hknown hcand

end

/-! ## Non-vacuity -/

namespace Demo

/-- C199 on a case: with enough iterations and rounds hill climbing finds the network `Y → X` of `roundData` with probability at least 0.99. -/
example : ∃ T₀ k₀, ∀ a : SBArgs, a.optimizer ≠ "tabu" → a.maxParents = none → a.patience = none → T₀ ≤ a.iterations → ∀ k, k₀ ≤ k →
    ∃ P : Measure (ℕ → ℕ), IsProbabilityMeasure P ∧
    P.real {ω | ∃ (complete : DiGraph) (order : Option (List Label)) (es : Finset Edge) (rep : Option (ℚ × ℚ)) (e' : Estimator),
      (∀ o, order = some o → o.Perm exS2.labels) ∧
      estimateStructure (famScoreOn (repeated roundData k) 1 1) [[true, true], [true, true]] ⟨exS2, complete⟩ a order (fun _ i => ω i) (fun _ _ => 0) = (.ok (es, rep), e') ∧
      es ≠ {("Y", "X")}} ≤ 1 / 100 := by
  obtain ⟨T₀, k₀, h⟩ := hill_network_eventually_recovered (s := exS2) (ts := repeated roundData) (R := [[true, true], [true, true]]) (known := [])
    (truth := {("Y", "X")}) (N := fun k => (k : ℝ)) (uniform_repeated roundData_ok) (le_refl 2) one_pos one_pos tendsto_natCast_atTop_atTop (known_data exU_known)
    (by decide) (by simp) round_true round_false (ε := 1 / 100) (by norm_num)
  refine ⟨T₀, k₀, fun a h1 h2 h3 h4 k hk => ?_⟩
  obtain ⟨P, p1, p2⟩ := uniform_choices_exist 1 (by norm_num)
  refine ⟨P, p1, h a h1 h2 h3 h4 k hk P _ (fun n hn => ?_) (fun _ _ _ => 0)⟩
  rw [(show ∀ n ∈ exS2.labels, (openParents exS2 [] n).card = 1 by decide) n hn]
  exact p2

/-- C200 on a case: the network `X → Y`. -/
example : ∃ T₀, ∀ T, T₀ ≤ T → ∃ Q : Measure (ℕ → ℕ), IsProbabilityMeasure Q ∧
    Tendsto (fun m => drawLaw 2 (Measure.infinitePi choiceLaw) {ω | ¬ ProbablyRecovers pairCtbn [] 1 1 [[true, true], [true, true]] ⟨none, T, none, none, none, "hill"⟩
      Q (fun _ i ω => ω i) (fun _ _ _ => 0) (1 / 100) [sampledRows pairNet someCategorical m ω]}) atTop (𝓝 0) := by
  obtain ⟨T₀, h⟩ := hill_sampled_network_recovered pair_describes pair_ok someCategorical (ε := 1 / 100) (by norm_num) (by unfold NoSuffixClash; decide) (by decide)
    pair_conservative pair_allPositive (le_refl 2) (fun _ _ => rfl) (by decide) pair_stationary pair_matters [] one_pos one_pos (R := [[true, true], [true, true]]) (known := [])
    rfl (by simp) (by decide)
  refine ⟨T₀, fun T hT => ?_⟩
  obtain ⟨P, p1, p2⟩ := uniform_choices_exist 1 (by norm_num)
  refine ⟨P, p1, h ⟨none, T, none, none, none, "hill"⟩ ⟨by simp, by simp, by simp⟩ (show ("hill" : String) ≠ "tabu" by decide) rfl rfl hT P _ (fun n hn => ?_) _⟩
  rw [(show ∀ n ∈ pairCtbn.vars, (openParents (builtStruct pairCtbn.vars (pairCtbn.vars.map pairCtbn.card) []) [] n).card = 1 by decide) n hn]
  exact p2

end Demo

end

end PyCTBN
