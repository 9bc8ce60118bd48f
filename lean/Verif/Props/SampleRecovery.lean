import Verif.Props.SampleValid
import Verif.Props.ScoreRecovery

/-!
# Score-based estimation recovers the network from long sampled trajectories (C195, C196)
-/

open MeasureTheory ProbabilityTheory Filter
open scoped ENNReal Topology

namespace PyCTBN
open Spec JumpPaths

noncomputable section

/-! ## Events that become rare -/

/-- Something fails with a probability that tends to 0. -/
def Likely {Ω ι : Type} [MeasurableSpace Ω] (μ : Measure Ω) (l : Filter ι) (Q : ι → Ω → Prop) : Prop := Tendsto (fun m => μ {ω | ¬ Q m ω}) l (𝓝 0)

section
variable {Ω ι : Type} [MeasurableSpace Ω] {μ : Measure Ω} {l : Filter ι}

theorem Likely.mono {Q Q' : ι → Ω → Prop} (h : Likely μ l Q) (hQ : ∀ᶠ m in l, ∀ ω, Q m ω → Q' m ω) : Likely μ l Q' := by
  refine tendsto_of_tendsto_of_tendsto_of_le_of_le' tendsto_const_nhds h (.of_forall (fun _ => zero_le)) ?_
  filter_upwards [hQ] with m hm
  exact measure_mono (fun ω hω hq => hω (hm ω hq))

theorem Likely.and {Q Q' : ι → Ω → Prop} (h : Likely μ l Q) (h' : Likely μ l Q') : Likely μ l (fun m ω => Q m ω ∧ Q' m ω) := by
  have hsum := Tendsto.add h h'
  rw [add_zero] at hsum
  refine tendsto_of_tendsto_of_tendsto_of_le_of_le tendsto_const_nhds hsum (fun _ => zero_le) (fun m => ?_)
  refine (measure_mono (fun ω hω => ?_)).trans (measure_union_le _ _)
  simp only [Set.mem_ofPred_eq, not_and_or] at hω
  exact hω

theorem Likely.all {κ : Type} {p : κ → Prop} (hp : {i | p i}.Finite) {Q : κ → ι → Ω → Prop} (h : ∀ i, p i → Likely μ l (Q i)) :
    Likely μ l (fun m ω => ∀ i, p i → Q i m ω) := by
  have hsum := tendsto_finsetSum hp.toFinset (fun i hi => h i (hp.mem_toFinset.1 hi))
  simp only [Finset.sum_const_zero] at hsum
  refine tendsto_of_tendsto_of_tendsto_of_le_of_le tendsto_const_nhds hsum (fun _ => zero_le) (fun m => ?_)
  refine (measure_mono (fun ω hω => ?_)).trans (measure_biUnion_finset_le hp.toFinset (fun i => {ω | ¬ Q i m ω}))
  simp only [Set.mem_ofPred_eq] at hω
  push Not at hω
  obtain ⟨i, hi, hq⟩ := hω
  exact Set.mem_biUnion (hp.mem_toFinset.2 hi) hq

theorem Likely.imp {A : Prop} {Q : ι → Ω → Prop} (h : A → Likely μ l Q) : Likely μ l (fun m ω => A → Q m ω) := by
  by_cases hA : A
  · exact (h hA).mono (.of_forall (fun _ _ hq _ => hq))
  · unfold Likely
    have : ∀ m, {ω | ¬ (A → Q m ω)} = ∅ := fun m => by ext ω; simp [hA]
    simp only [this, measure_empty]
    exact tendsto_const_nhds

theorem Likely.of_ae {Q : ι → Ω → Prop} (h : ∀ᶠ m in l, ∀ᵐ ω ∂μ, Q m ω) : Likely μ l Q := by
  refine tendsto_const_nhds.congr' ?_
  filter_upwards [h] with m hm
  exact (ae_iff.1 hm).symm

theorem mem_list_finite {ι : Type} (l : List ι) : {i | i ∈ l}.Finite := by
  classical
  exact (l.toFinset.finite_toSet).subset (fun i hi => by simpa using hi)

end

/-! ## Circumstances that do not depend on the order of the variables -/

theorem circumstances_iff {N : Ctbn} {v : Label} {L : List Label} {x : Nat} {f : Label → Nat} {vals : List Nat} :
    Circumstances N v L x (L.map f) vals ↔ N.state vals v = x ∧ ∀ q ∈ L, N.state vals q = f q := by
  unfold Circumstances
  rw [List.map_inj_left]

theorem share_congr (N : Ctbn) (π : List Nat → ℝ) (v : Label) {L L' : List Label} (h : ∀ q, q ∈ L ↔ q ∈ L') (x : Nat) (f : Label → Nat) :
    share N π v L x (L.map f) = share N π v L' x (L'.map f) := by
  unfold share
  refine Finset.sum_congr rfl (fun a _ => ?_)
  simp only [circumstances_iff, h]

theorem flux_congr (N : Ctbn) (rate : Rates) (π : List Nat → ℝ) (v : Label) {L L' : List Label} (h : ∀ q, q ∈ L ↔ q ∈ L') (x y : Nat) (f : Label → Nat) :
    flux N rate π v L x y (L.map f) = flux N rate π v L' x y (L'.map f) := by
  unfold flux
  refine Finset.sum_congr rfl (fun a _ => ?_)
  simp only [circumstances_iff, h]

theorem parentPart_map (N : Ctbn) (v : Label) {L : List Label} (hP : ∀ p ∈ N.parents v, p ∈ L) (f : Label → Nat) :
    N.parentPart v L (L.map f) = (N.parents v).map f := by
  unfold Ctbn.parentPart
  refine List.map_congr_left (fun p hp => ?_)
  have hi : L.idxOf p < L.length := List.idxOf_lt_length_iff.2 (hP p hp)
  rw [List.getD_eq_getElem?_getD, List.getElem?_map, List.getElem?_eq_getElem hi]
  simp

/-- The joint state in which every variable `q` is in the state `f q`. -/
theorem joint_of {N : Ctbn} (f : Label → Nat) {q : Label} (hq : q ∈ N.vars) : N.state (N.vars.map f) q = f q := by
  unfold Ctbn.state
  rw [List.getElem?_map, List.getElem?_eq_getElem (List.idxOf_lt_length_iff.2 hq)]
  simp

theorem mem_edges {N : Ctbn} {p n : Label} : (p, n) ∈ N.edges ↔ n ∈ N.vars ∧ p ∈ N.parents n := by
  unfold Ctbn.edges
  simp only [Finset.mem_biUnion, List.mem_toFinset, Finset.mem_image, Prod.mk.injEq]
  constructor
  · rintro ⟨n', h1, p', h2, rfl, rfl⟩; exact ⟨h1, h2⟩
  · rintro ⟨h1, h2⟩; exact ⟨n, h1, p, h2, rfl, rfl⟩

/-- Importing the rows and estimating the structure by score returns exactly the edges of the network, whatever is drawn during the search and in whatever order
the variables are processed. -/
def Recovers (N : Ctbn) (es : List Edge) (τ α : ℝ) (R : List (List Bool)) (a : SBArgs) (raws : List RawTraj) : Prop :=
  ∃ (p : SamplePath) (s : Structure) (t : Trajectory), buildFromRaw (raws.map (SampleNet.frame N.vars)) ⟨List.range N.vars.length, N.vars, N.vars.map N.card⟩ es = .ok p ∧
    p.struct = some s ∧ p.trajectories = some t ∧
    ∀ (complete : DiGraph) (order : Option (List Label)) (pick drop : Label → Nat → Nat), (∀ o, order = some o → o.Perm N.vars) →
      ∃ rep e', estimateStructure (famScoreOn t τ α) R ⟨s, complete⟩ a order pick drop = (.ok (N.edges, rep), e')

/-- Random rows of growing size whose statistics come close to those of the stationary process: times and counts per unit of size come close to `1 / k` times their stationary
values, and, given all parents, the counts come close to the rates times the times on the scale of the square root of the size times its logarithm. -/
structure TypicalRows (N : Ctbn) (π : List Nat → ℝ) {Ω ι : Type} [MeasurableSpace Ω] (μ : Measure Ω) (l : Filter ι) (size : ι → ℝ) (k : ℝ) (rows : ι → Ω → List RawTraj) : Prop where
  grows : Tendsto size l atTop
  pos : 0 < k
  close : ∀ {ε : ℝ}, 0 < ε → ∀ {v : Label}, v ∈ N.vars → ∀ {L : List Label}, (∀ p ∈ L, p ∈ N.vars) → ∀ (x : Nat) (u : List Nat),
    Likely μ l (fun m ω => |(rawResidence N.vars (rows m ω) v L x u : ℝ) / size m - share N π v L x u / k| < ε) ∧
    ∀ y < N.card v, y ≠ x →
      Likely μ l (fun m ω => |(rawTransitions N.vars (rows m ω) v L x y u : ℝ) / size m - flux N N.inverseRates π v L x y u / k| < ε) ∧
      ((∀ p ∈ N.parents v, p ∈ L) → Likely μ l (fun m ω => ((rawTransitions N.vars (rows m ω) v L x y u : ℝ)
        - N.inverseAt v (N.parentPart v L u) x y * (rawResidence N.vars (rows m ω) v L x u : ℝ)) ^ 2 / (size m * Real.log (size m)) < ε))
  usable : Likely μ l (fun m ω => UsableData N (rows m ω))

section
variable {net : SampleNet} {N : Ctbn} (hD : Describes net N) (hOK : N.OK)
include hD hOK
variable {U : Type} [MeasurableSpace U] {P : Measure U} [IsProbabilityMeasure P] (C : Categorical U P)

/-- The statistics of sampled rows come close to their limits. -/
theorem sampled_likely_close (hc : N.Conservative) (hirr : N.Irreducible) {π : List Nat → ℝ} (hπ : Stationary N N.inverseRates π) {ε : ℝ} (hε : 0 < ε)
    {v : Label} (hv : v ∈ N.vars) {L : List Label} (hL : ∀ p ∈ L, p ∈ N.vars) (x : Nat) (u : List Nat) :
    Likely (drawLaw N.vars.length P) atTop (fun m ω => |(rawResidence N.vars [sampledRows net C m ω] v L x u : ℝ) / m - share N π v L x u / pace N N.inverseRates π| < ε) ∧
    ∀ y < N.card v, y ≠ x →
      Likely (drawLaw N.vars.length P) atTop (fun m ω => |(rawTransitions N.vars [sampledRows net C m ω] v L x y u : ℝ) / m
        - flux N N.inverseRates π v L x y u / pace N N.inverseRates π| < ε) ∧
      ((∀ p ∈ N.parents v, p ∈ L) → Likely (drawLaw N.vars.length P) atTop (fun m ω => ((rawTransitions N.vars [sampledRows net C m ω] v L x y u : ℝ)
        - N.inverseAt v (N.parentPart v L u) x y * (rawResidence N.vars [sampledRows net C m ω] v L x u : ℝ)) ^ 2 / (m * Real.log m) < ε)) := by
  refine ⟨?_, fun y hy hyx => ⟨?_, fun hP => ?_⟩⟩
  · obtain ⟨B, h⟩ := sample_residence_mean hD hOK C hc hirr hπ hv hL x u
    unfold Likely
    simp only [not_lt]
    exact tendsto_of_bound (fun n hn => h n hn hε)
  · obtain ⟨B, h⟩ := sample_transitions_mean hD hOK C hc hirr hπ hv hL hyx hy u
    unfold Likely
    simp only [not_lt]
    exact tendsto_of_bound (fun n hn => h n hn hε)
  · obtain ⟨B, hB, h⟩ := sample_rate_deviation hD hOK C hc hirr hv hL hP hyx hy u
    unfold Likely
    simp only [not_lt]
    have hlog : Tendsto (fun m : ℕ => Real.log m) atTop atTop := Real.tendsto_log_atTop.comp tendsto_natCast_atTop_atTop
    have hlim : Tendsto (fun m : ℕ => ENNReal.ofReal (B / ε / Real.log m)) atTop (𝓝 0) := by
      rw [← ENNReal.ofReal_zero]
      exact ENNReal.tendsto_ofReal (hlog.const_div_atTop _)
    refine tendsto_of_tendsto_of_tendsto_of_le_of_le' tendsto_const_nhds hlim (.of_forall (fun _ => zero_le)) ?_
    filter_upwards [eventually_ge_atTop 2] with m hm
    have hm' : (2 : ℝ) ≤ m := by exact_mod_cast hm
    have hl : 0 < Real.log m := Real.log_pos (by linarith)
    have hml : 0 < (m : ℝ) * Real.log m := by positivity
    have hδ : 0 < Real.sqrt (ε * (m * Real.log m)) := Real.sqrt_pos.2 (by positivity)
    refine (measure_mono (fun ω hω => ?_)).trans ((h m (by omega) hδ).trans (le_of_eq ?_))
    · simp only [Set.mem_ofPred_eq] at hω ⊢
      rw [le_div_iff₀ hml] at hω
      exact Real.sqrt_le_sqrt hω |>.trans (le_of_eq (Real.sqrt_sq_eq_abs _))
    · rw [Real.sq_sqrt (by positivity)]
      congr 1
      field_simp

/-- Rows sampled with `max_tr = m` for growing `m`. -/
theorem sampled_typical (hc : N.Conservative) (hirr : N.Irreducible) {π : List Nat → ℝ} (hπ : Stationary N N.inverseRates π) :
    TypicalRows N π (drawLaw N.vars.length P) atTop (fun m : ℕ => (m : ℝ)) (pace N N.inverseRates π) (fun m ω => [sampledRows net C m ω]) where
  grows := tendsto_natCast_atTop_atTop
  pos := pace_pos hOK (usable_inverse hD hOK (leaves_of_conservative hD hOK hc)) hπ
  close hε _ hv _ hL x u := sampled_likely_close hD hOK C hc hirr hπ hε hv hL x u
  usable := Likely.of_ae (by
    filter_upwards [eventually_ge_atTop 1] with m hm
    filter_upwards [sampled_rows_usable hD hOK C (leaves_of_conservative hD hOK hc) hm] with ω hω
    exact usableData_single hω)

theorem share_positive (hc : N.Conservative) (hirr : N.Irreducible) {π : List Nat → ℝ} (hπ : Stationary N N.inverseRates π) {n : Label} (hn : n ∈ N.vars) {L : List Label}
    (hL : ∀ q ∈ L, q ∈ N.vars) (hnL : n ∉ L) {f : Label → Nat} (hf : ∀ q ∈ N.vars, f q < N.card q) {x : Nat} (hx : x < N.card n) : 0 < share N π n L x (L.map f) := by
  have hU := usable_inverse hD hOK (leaves_of_conservative hD hOK hc)
  have hconn := connected_inverse hD hOK hc hirr
  have hr : N.InRange (N.vars.map (Function.update f n x)) := by
    refine ⟨by simp, fun q hq => ?_⟩
    rw [joint_of _ hq]
    by_cases e : q = n
    · subst e; rw [Function.update_self]; exact hx
    · rw [Function.update_of_ne e]; exact hf q hq
  unfold share
  refine Finset.sum_pos' (fun a ha => ?_) ⟨_, (mem_joint hOK).2 hr, ?_⟩
  · split_ifs
    · exact hπ.nonneg a ha
    · exact le_rfl
  · rw [if_pos]
    · exact stationary_pos hOK hU hconn hπ hr
    · rw [circumstances_iff, joint_of _ hn, Function.update_self]
      refine ⟨rfl, fun q hq => ?_⟩
      rw [joint_of _ (hL q hq), Function.update_of_ne]
      rintro rfl
      exact hnL hq

omit hD hOK in
theorem inverseAt_positive (hOK : N.OK) (hc : N.Conservative) (hpos : N.AllPositive) (hD : Describes net N) {n : Label} (hn : n ∈ N.vars) (hns : n ∉ N.parents n)
    {f : Label → Nat} (hf : ∀ q ∈ N.vars, f q < N.card q) {x y : Nat} (hx : x < N.card n) (hy : y < N.card n) (hyx : y ≠ x) :
    0 < N.inverseAt n ((N.parents n).map f) x y := by
  have hr : N.InRange (N.vars.map (Function.update f n x)) := by
    refine ⟨by simp, fun q hq => ?_⟩
    rw [joint_of _ hq]
    by_cases e : q = n
    · subst e; rw [Function.update_self]; exact hx
    · rw [Function.update_of_ne e]; exact hf q hq
  have hst : N.state (N.vars.map (Function.update f n x)) n = x := by rw [joint_of _ hn, Function.update_self]
  have hps : N.parentStates (N.vars.map (Function.update f n x)) n = (N.parents n).map f := by
    unfold Ctbn.parentStates
    refine List.map_congr_left (fun q hq => ?_)
    rw [joint_of _ (hOK.closed n hn q hq), Function.update_of_ne]
    rintro rfl
    exact hns hq
  have h1 := hpos _ hr n hn y hy (by rw [hst]; exact hyx)
  have h2 := leaves_of_conservative hD hOK hc _ hr n hn
  unfold Ctbn.exitRate at h2
  unfold Ctbn.intensity at h1 h2
  rw [hst, hps] at h1 h2
  unfold Ctbn.inverseAt Ctbn.exitAt Ctbn.intensityAt
  have h1' : (0 : ℝ) < (cell (N.cim n ((N.parents n).map f)) x y : ℝ) := by exact_mod_cast h1
  have h2' : (0 : ℝ) < ((-(cell (N.cim n ((N.parents n).map f)) x x) : ℚ) : ℝ) := by exact_mod_cast h2
  positivity

omit hD hOK in
/-- On typical rows the estimates of intensities come close to the stationary mean rates. -/
theorem typical_estimate_limit {Ω ι : Type} [MeasurableSpace Ω] {μ : Measure Ω} {l : Filter ι} {size : ι → ℝ} {k : ℝ} {rows : ι → Ω → List RawTraj} {π : List Nat → ℝ}
    (hrows : TypicalRows N π μ l size k rows) {v : Label} (hv : v ∈ N.vars) {L : List Label} (hL : ∀ p ∈ L, p ∈ N.vars) {x y : Nat} (hxy : y ≠ x) (hy : y < N.card v)
    (u : List Nat) (hshare : 0 < share N π v L x u) {ε : ℝ} (hε : 0 < ε) :
    Likely μ l (fun m ω => |((rawTransitions N.vars (rows m ω) v L x y u : ℝ) + 1)
      / ((rawResidence N.vars (rows m ω) v L x u : ℝ) + 1) - flux N N.inverseRates π v L x y u / share N π v L x u| < ε) := by
  have hp := hrows.pos
  set s := share N π v L x u / k with hs
  set f := flux N N.inverseRates π v L x y u / k with hf
  have hs0 : 0 < s := div_pos hshare hp
  have hr : flux N N.inverseRates π v L x y u / share N π v L x u = f / s := by
    rw [hs, hf]; field_simp
  rw [hr]
  set r := f / s with hr'
  obtain ⟨η, hη0, hη1, hη2⟩ : ∃ η > 0, η ≤ s / 2 ∧ η * (1 + |r|) ≤ ε * s / 8 := by
    refine ⟨min (s / 2) (ε * s / 8 / (1 + |r|)), lt_min (by positivity) (by positivity), min_le_left _ _, ?_⟩
    have := min_le_right (s / 2) (ε * s / 8 / (1 + |r|))
    rwa [le_div_iff₀ (by positivity)] at this
  obtain ⟨g1, g2⟩ := hrows.close hη0 hv hL x u
  refine (g1.and (g2 y hy hxy).1).mono ?_
  filter_upwards [hrows.grows.eventually_ge_atTop 1, hrows.grows.eventually_gt_atTop (8 * (1 + |r|) / (ε * s))] with m hn1 hnn ω ⟨hT, hM⟩
  by_contra hω
  rw [not_lt] at hω
  set n := size m
  have hnpos : (0 : ℝ) < n := by linarith
  set T := (rawResidence N.vars (rows m ω) v L x u : ℝ)
  set M := (rawTransitions N.vars (rows m ω) v L x y u : ℝ)
  rw [div_lt_iff₀ (by positivity)] at hnn
  have hT' : |T - n * s| < η * n := by
    rwa [show T / n - s = (T - n * s) / n by field_simp, abs_div, abs_of_pos hnpos, div_lt_iff₀ hnpos] at hT
  have hM' : |M - n * f| < η * n := by
    rwa [show M / n - f = (M - n * f) / n by field_simp, abs_div, abs_of_pos hnpos, div_lt_iff₀ hnpos] at hM
  have hTpos : s / 2 * n ≤ T := by
    have := (abs_lt.1 hT').1
    nlinarith
  have hT1 : 0 < T + 1 := by nlinarith
  have hfr : f = r * s := by rw [hr', div_mul_cancel₀ _ hs0.ne']
  have e : (M + 1) / (T + 1) - r = ((M - n * f) - r * (T - n * s) + (1 - r)) / (T + 1) := by
    rw [eq_div_iff hT1.ne', sub_mul, div_mul_cancel₀ _ hT1.ne', hfr]
    ring
  rw [e, abs_div, abs_of_pos hT1, le_div_iff₀ hT1] at hω
  have hb : |(M - n * f) - r * (T - n * s) + (1 - r)| ≤ η * n + |r| * (η * n) + (1 + |r|) := by
    refine (abs_add_le _ _).trans (add_le_add ((abs_sub _ _).trans (add_le_add hM'.le ?_)) ?_)
    · rw [abs_mul]; exact mul_le_mul_of_nonneg_left hT'.le (abs_nonneg _)
    · refine (abs_sub _ _).trans ?_; rw [abs_one]
  have h3 : ε * (s / 2 * n) ≤ ε * (T + 1) := mul_le_mul_of_nonneg_left (by linarith) hε.le
  have h4 : η * n + |r| * (η * n) ≤ ε * s / 8 * n := by nlinarith
  nlinarith [mul_pos (mul_pos hε hs0) hnpos]

/-! ## The only network that cannot be improved -/

/-- Importing the rows works and builds data on which the network's edges are the only ones with the prior knowledge that cannot be improved by adding or removing an edge. -/
def OnlyTruth (N : Ctbn) (es : List Edge) (c : Nat) (τ α : ℝ) (known : List Edge) (raws : List RawTraj) : Prop :=
  ∃ (p : SamplePath) (t : Trajectory), buildFromRaw (raws.map (SampleNet.frame N.vars)) ⟨List.range N.vars.length, N.vars, N.vars.map N.card⟩ es = .ok p ∧
    p.struct = some (builtStruct N.vars (N.vars.map N.card) es) ∧ p.trajectories = some t ∧ UniformData (builtStruct N.vars (N.vars.map N.card) es).cleanEdges t c ∧
    ∀ es' : Finset Edge, (∀ x ∈ es', x.1 ∈ N.vars ∧ x.2 ∈ N.vars ∧ x.1 ≠ x.2) → (∀ x ∈ known, x ∈ es') →
      ¬ Improvable (builtStruct N.vars (N.vars.map N.card) es).cleanEdges t c τ α known es' → es' = N.edges

theorem typical_only_truth {Ω ι : Type} [MeasurableSpace Ω] {μ : Measure Ω} {l : Filter ι} {size : ι → ℝ} {k : ℝ} {rows : ι → Ω → List RawTraj} {π : List Nat → ℝ}
    (hrows : TypicalRows N π μ l size k rows) (hcl : NoSuffixClash N.vars) (hT : "Time" ∉ N.vars) (hc : N.Conservative) (hpos : N.AllPositive) {c : Nat} (hc2 : 2 ≤ c)
    (hcard : ∀ v ∈ N.vars, N.card v = c) (hns : ∀ v ∈ N.vars, v ∉ N.parents v) (hπ : Stationary N N.inverseRates π)
    (hmat : ∀ n ∈ N.vars, ∀ p ∈ N.parents n, ∀ K : List Label, (∀ q ∈ K, q ∈ N.vars) → p ∉ K → n ∉ K → StationaryMatters N N.inverseRates π n K p)
    (es : List Edge) {τ α : ℝ} (hτ : 0 < τ) (hα : 0 < α) {known : List Edge} (hknown : ∀ e ∈ known, e ∈ N.edges) :
    Likely μ l (fun m ω => OnlyTruth N es c τ α known (rows m ω)) := by
  have hirr := irreducible_of_allPositive hOK hpos
  have hleaves := leaves_of_conservative hD hOK hc
  have hpace := hrows.pos
  set s := builtStruct N.vars (N.vars.map N.card) es with hs
  have hfr : ∀ f : Label → Nat, (∀ q, f q < c) → ∀ q ∈ N.vars, f q < N.card q := fun f hf q hq => by rw [hcard q hq]; exact hf q
  let par : Label → List Label := fun n => if n ∈ N.vars then N.parents n else []
  have hparv : ∀ n ∈ N.vars, par n = N.parents n := fun n hn => if_pos hn
  have hsl : ∀ L ∈ N.vars.sublists, ∀ q ∈ L, q ∈ N.vars := fun L hL q hq => (List.mem_sublists.1 hL).subset hq
  obtain ⟨ε, hε, m₀, hrec⟩ := truth_if_close (s := s) hc2 hτ hα (known := known) (truth := N.edges)
    (fun e he => by
      obtain ⟨p, n⟩ := e
      obtain ⟨h1, h2⟩ := mem_edges.1 he
      refine ⟨hOK.closed n h1 p h2, h1, ?_⟩
      intro e
      have e : p = n := e
      subst e
      exact hns _ h1 h2) hknown (par := par) (fun p n => by
      rw [mem_edges]
      by_cases hn : n ∈ N.vars
      · rw [hparv n hn]; simp [hn]
      · simp [par, hn])
    (S := fun n L x u => share N π n L x u / k) (μ := fun n L x y u => flux N N.inverseRates π n L x y u / k)
    (ρ := fun n L x y u => N.inverseAt n (N.parentPart n L u) x y)
    (fun n hn L hL hnL f hf x hx => div_pos (share_positive hD hOK hc hirr hπ hn (hsl L hL) hnL (hfr f hf) (by rw [hcard n hn]; exact hx)) hpace)
    (fun n hn L hL hnL hP f hf x hx y hy hyx => by
      rw [hparv n hn] at hP
      rw [parentPart_map N n hP]
      exact inverseAt_positive hOK hc hpos hD hn (hns n hn) (hfr f hf) (by rw [hcard n hn]; exact hx) (by rw [hcard n hn]; exact hy) hyx)
    (fun n hn L hL hP f g hfg x y => by
      rw [hparv n hn] at hP hfg
      rw [parentPart_map N n hP, parentPart_map N n hP, List.map_congr_left hfg])
    (fun p n he K hKl hpK hnK => by
      obtain ⟨h1, h2⟩ := mem_edges.1 he
      have hp := hOK.closed n h1 p h2
      obtain ⟨f, hf, x, y, z, z', hx, hy, hyx, hz, hz', hne⟩ := hmat n h1 p h2 K hKl hpK hnK
      rw [hcard n h1] at hx hy
      rw [hcard p hp] at hz hz'
      refine ⟨fun q => if q ∈ N.vars then f q else 0, fun q => ?_, x, y, z, z', hx, hy, hyx, hz, hz', ?_⟩
      · dsimp only
        split_ifs with hq
        · rw [← hcard q hq]; exact hf q hq
        · omega
      · have hmem : ∀ q, q ∈ ordered s (p :: K) ↔ q ∈ p :: K := fun q => by
          unfold ordered
          rw [List.mem_filter, decide_eq_true_eq]
          refine ⟨fun h => h.2, fun h => ⟨?_, h⟩⟩
          rcases List.mem_cons.1 h with rfl | h
          · exact hp
          · exact hKl q h
        have hmap : ∀ z, (p :: K).map (Function.update (fun q => if q ∈ N.vars then f q else 0) p z) = z :: K.map f := by
          intro z
          rw [List.map_cons, Function.update_self]
          congr 1
          refine List.map_congr_left (fun q hq => ?_)
          rw [Function.update_of_ne (by rintro rfl; exact hpK hq)]
          exact if_pos (hKl q hq)
        rw [share_congr N π n hmem, share_congr N π n hmem, flux_congr N _ π n hmem, flux_congr N _ π n hmem, hmap, hmap,
          div_div_div_cancel_right₀ hpace.ne', div_div_div_cancel_right₀ hpace.ne']
        exact hne)
  -- the statistics of the rows are close, the rows usable
  have hclose : Likely μ l (fun m ω => ∀ n, n ∈ N.vars → ∀ L, L ∈ N.vars.sublists → ∀ u, u ∈ assignments (L.map (fun _ => c)) → ∀ x, x < c →
      |(rawResidence N.vars (rows m ω) n L x u : ℝ) / size m - share N π n L x u / k| < ε ∧ ∀ y, y < c → y ≠ x →
      |(rawTransitions N.vars (rows m ω) n L x y u : ℝ) / size m - flux N N.inverseRates π n L x y u / k| < ε ∧
      ((∀ p ∈ par n, p ∈ L) → ((rawTransitions N.vars (rows m ω) n L x y u : ℝ)
        - N.inverseAt n (N.parentPart n L u) x y * (rawResidence N.vars (rows m ω) n L x u : ℝ)) ^ 2 / (size m * Real.log (size m)) < ε)) := by
    refine Likely.all (mem_list_finite _) (fun n hn => Likely.all (mem_list_finite _) (fun L hL => Likely.all (mem_list_finite _) (fun u hu =>
      Likely.all (Set.finite_lt_nat c) (fun x hx => ?_))))
    obtain ⟨g1, g2⟩ := hrows.close hε hn (hsl L hL) x u
    refine g1.and (Likely.all (Set.finite_lt_nat c) (fun y hy => Likely.imp (fun hyx => ?_)))
    obtain ⟨g3, g4⟩ := g2 y (by rw [hcard n hn]; exact hy) hyx
    rw [hparv n hn]
    exact g3.and (Likely.imp g4)
  refine (hclose.and hrows.usable).mono ?_
  filter_upwards [hrows.grows.eventually_ge_atTop m₀] with m hm ω ⟨h1, h2⟩
  obtain ⟨⟨p, p1, p2, p3⟩, hdata, hstat⟩ := usable_builds hOK hcl hT hcard h2 es
  refine ⟨p, _, p1, p2, p3, hdata, hrec _ hm _ hdata (fun n hn L hL u hu x hx => ?_)⟩
  obtain ⟨g1, g2⟩ := h1 n hn L hL u hu x hx
  rw [(hstat n hn L (hsl L hL) x u).1]
  refine ⟨g1, fun y hy hyx => ?_⟩
  rw [(hstat n hn L (hsl L hL) x u).2 y]
  exact g2 y hy hyx

omit hD hOK in
theorem known_built {es known : List Edge} {R : List (List Bool)} (hR : buildRemovable (builtStruct N.vars (N.vars.map N.card) es) N.vars.length known = .ok R)
    (hknown : ∀ e ∈ known, e ∈ N.edges) (hns : ∀ v ∈ N.vars, v ∉ N.parents v) {τ α : ℝ} (t : Trajectory) :
    KnownEdges (sbEnv (builtStruct N.vars (N.vars.map N.card) es).cleanEdges t τ α R) known := ⟨rfl, hR, fun e he => by
  obtain ⟨p, n⟩ := e
  obtain ⟨h1, h2⟩ := mem_edges.1 (hknown _ he)
  intro e
  have e : p = n := e
  subst e
  exact hns _ h1 h2⟩

omit hD hOK in
theorem candidates_built {es known : List Edge} (hcand : ∀ n ∈ N.vars, ∃ q ∈ N.vars, q ≠ n ∧ (q, n) ∉ known) (t : Trajectory) (R : List (List Bool)) (τ α : ℝ) :
    ∀ n ∈ (builtStruct N.vars (N.vars.map N.card) es).labels,
      (candidates (sbEnv (builtStruct N.vars (N.vars.map N.card) es).cleanEdges t τ α R) known n).Nonempty := by
  intro n hn
  obtain ⟨q, q1, q2, q3⟩ := hcand n hn
  refine ⟨q, ?_⟩
  unfold candidates parentsIn
  simp only [Finset.mem_sdiff, Finset.mem_erase, List.mem_toFinset, ne_eq, List.mem_map, List.mem_filter, decide_eq_true_eq]
  refine ⟨⟨q2, q1⟩, ?_⟩
  rintro ⟨⟨p', n'⟩, ⟨h1, h2⟩, h3⟩
  simp only at h2 h3
  subst h2 h3
  exact q3 h1

omit hD in
/-- If only the edges of the network cannot be improved, score-based estimation by tabu search returns them. -/
theorem tabu_of_only_truth {c : Nat} (hc2 : 2 ≤ c) (hns : ∀ v ∈ N.vars, v ∉ N.parents v) {es : List Edge} {τ α : ℝ} (hτ : 0 < τ) (hα : 0 < α) {R : List (List Bool)} {known : List Edge}
    (hR : buildRemovable (builtStruct N.vars (N.vars.map N.card) es) N.vars.length known = .ok R) (hknown : ∀ e ∈ known, e ∈ N.edges)
    (hcand : ∀ n ∈ N.vars, ∃ q ∈ N.vars, q ≠ n ∧ (q, n) ∉ known) {a : SBArgs}
    (hopt : a.optimizer = "tabu") (hmp : a.maxParents = none) (htl : ∀ k, a.tabuLength = some k → (N.vars.length : ℤ) - 1 ≤ k)
    (htd : ∀ k, a.tabuDuration = some k → (N.vars.length : ℤ) - 1 ≤ |k|) (hpat : ∀ m, a.patience = some m → (N.vars.length : ℤ) - 1 ≤ m + 1)
    (hit : (N.vars.length - 1) * 2 ^ (N.vars.length - 1) ≤ a.iterations) {rows : List RawTraj} (h : OnlyTruth N es c τ α known rows) : Recovers N es τ α R a rows := by
  set s := builtStruct N.vars (N.vars.map N.card) es with hs
  have hK := known_built hR hknown hns (τ := τ) (α := α)
  obtain ⟨p, t, p1, p2, p3, hdata, honly⟩ := h
  refine ⟨p, s, t, p1, p2, p3, fun complete order pick drop ho => ?_⟩
  have hlen : 2 ≤ N.vars.length := by
    obtain ⟨n, hn⟩ := List.exists_mem_of_ne_nil _ hOK.nonempty
    obtain ⟨q, q1, q2, -⟩ := hcand n hn
    by_contra hl
    have hl : N.vars.length = 1 := by
      have := List.length_pos_of_mem hn
      omega
    obtain ⟨v, hv⟩ := List.length_eq_one_iff.1 hl
    rw [hv, List.mem_singleton] at hn q1
    exact q2 (q1.trans hn.symm)
  obtain ⟨es', rep, e', h, -⟩ := score_based_returns_partial (a := a) hdata hc2 hτ hα (hK _) ⟨by rw [hmp]; simp, fun k hk => by have := htl k hk; omega,
    fun k hk => by
      have := htd k hk
      rintro rfl
      simp at this
      omega⟩ (candidates_built hcand t R τ α) complete ho pick drop
  have hws : WFStructure s := ⟨hdata.wf.1, hdata.wf.2, hdata.wf.3⟩
  refine ⟨rep, e', ?_⟩
  rw [← honly es' (estimate_well_formed (e := ⟨s, complete⟩) hws (hK t) ho h).1 (score_based_keeps_known_partial (e := ⟨s, complete⟩) hws (hK t) ho (by rw [hmp]; simp) h)
    (tabu_unimprovable hdata hc2 hτ hα (hK t) hopt hmp htl htd hpat hit ho h)]
  exact h

/-- Score-based estimation by tabu search recovers the network from typical rows. -/
theorem typical_network_recovered {Ω ι : Type} [MeasurableSpace Ω] {μ : Measure Ω} {l : Filter ι} {size : ι → ℝ} {k : ℝ} {rows : ι → Ω → List RawTraj} {π : List Nat → ℝ}
    (hrows : TypicalRows N π μ l size k rows) (hcl : NoSuffixClash N.vars) (hT : "Time" ∉ N.vars) (hc : N.Conservative) (hpos : N.AllPositive) {c : Nat} (hc2 : 2 ≤ c)
    (hcard : ∀ v ∈ N.vars, N.card v = c) (hns : ∀ v ∈ N.vars, v ∉ N.parents v) (hπ : Stationary N N.inverseRates π)
    (hmat : ∀ n ∈ N.vars, ∀ p ∈ N.parents n, ∀ K : List Label, (∀ q ∈ K, q ∈ N.vars) → p ∉ K → n ∉ K → StationaryMatters N N.inverseRates π n K p)
    (es : List Edge) {τ α : ℝ} (hτ : 0 < τ) (hα : 0 < α) {R : List (List Bool)} {known : List Edge}
    (hR : buildRemovable (builtStruct N.vars (N.vars.map N.card) es) N.vars.length known = .ok R) (hknown : ∀ e ∈ known, e ∈ N.edges)
    (hcand : ∀ n ∈ N.vars, ∃ q ∈ N.vars, q ≠ n ∧ (q, n) ∉ known) {a : SBArgs}
    (hopt : a.optimizer = "tabu") (hmp : a.maxParents = none) (htl : ∀ k, a.tabuLength = some k → (N.vars.length : ℤ) - 1 ≤ k)
    (htd : ∀ k, a.tabuDuration = some k → (N.vars.length : ℤ) - 1 ≤ |k|) (hpat : ∀ m, a.patience = some m → (N.vars.length : ℤ) - 1 ≤ m + 1)
    (hit : (N.vars.length - 1) * 2 ^ (N.vars.length - 1) ≤ a.iterations) :
    Likely μ l (fun m ω => Recovers N es τ α R a (rows m ω)) := by
  exact (typical_only_truth hD hOK hrows hcl hT hc hpos hc2 hcard hns hπ hmat es hτ hα hknown).mono (.of_forall (fun m ω h =>
    tabu_of_only_truth hOK hc2 hns hτ hα hR hknown hcand hopt hmp htl htd hpat hit h))

/-! ## C195 -/

/-- **C195** Long sampled trajectories reveal the network.  All variables have `c ≥ 2` states, every variable can always move to each of its other states, no variable is its own
parent, and in the stationary process every parent matters to its child whatever other variables are taken into account.  Score-based estimation runs by tabu search under
the conditions of C130, with prior knowledge that is true and leaves every variable a candidate.  Then the probability that importing a trajectory sampled with `max_tr = m` and estimating the structure does
not return exactly the edges of the network tends to 0. -/
theorem sampled_network_recovered (hcl : NoSuffixClash N.vars) (hT : "Time" ∉ N.vars) (hc : N.Conservative) (hpos : N.AllPositive) {c : Nat} (hc2 : 2 ≤ c)
    (hcard : ∀ v ∈ N.vars, N.card v = c) (hns : ∀ v ∈ N.vars, v ∉ N.parents v) {π : List Nat → ℝ} (hπ : Stationary N N.inverseRates π)
    (hmat : ∀ n ∈ N.vars, ∀ p ∈ N.parents n, ∀ K : List Label, (∀ q ∈ K, q ∈ N.vars) → p ∉ K → n ∉ K → StationaryMatters N N.inverseRates π n K p)
    (es : List Edge) {τ α : ℝ} (hτ : 0 < τ) (hα : 0 < α) {R : List (List Bool)} {known : List Edge}
    (hR : buildRemovable (builtStruct N.vars (N.vars.map N.card) es) N.vars.length known = .ok R) (hknown : ∀ e ∈ known, e ∈ N.edges)
    (hcand : ∀ n ∈ N.vars, ∃ q ∈ N.vars, q ≠ n ∧ (q, n) ∉ known) {a : SBArgs}
    (hopt : a.optimizer = "tabu") (hmp : a.maxParents = none) (htl : ∀ k, a.tabuLength = some k → (N.vars.length : ℤ) - 1 ≤ k)
    (htd : ∀ k, a.tabuDuration = some k → (N.vars.length : ℤ) - 1 ≤ |k|) (hpat : ∀ m, a.patience = some m → (N.vars.length : ℤ) - 1 ≤ m + 1)
    (hit : (N.vars.length - 1) * 2 ^ (N.vars.length - 1) ≤ a.iterations) :
    Tendsto (fun m => drawLaw N.vars.length P {ω | ¬ Recovers N es τ α R a [sampledRows net C m ω]}) atTop (𝓝 0) :=
  typical_network_recovered hD hOK (sampled_typical hD hOK C hc (irreducible_of_allPositive hOK hpos) hπ) hcl hT hc hpos hc2 hcard hns hπ hmat es hτ hα hR hknown hcand hopt hmp htl
    htd hpat hit

/-! ## C196 -/

/-- A parent that tells matters in the stationary process, whatever else is taken into account. -/
theorem tells_matters (hc : N.Conservative) (hirr : N.Irreducible) {π : List Nat → ℝ} (hπ : Stationary N N.inverseRates π) {p n : Label} (hn : n ∈ N.vars)
    (hp : p ∈ N.parents n) (hpn : p ≠ n) (ht : Tells N p n) {K : List Label} (hK : ∀ q ∈ K, q ∈ N.vars) (hpK : p ∉ K) (hnK : n ∉ K) :
    StationaryMatters N N.inverseRates π n K p := by
  obtain ⟨x, y, z, z', hx, hy, hyx, hz, hz', hlt⟩ := ht
  have hpv := hOK.closed n hn p hp
  have hU := usable_inverse hD hOK (leaves_of_conservative hD hOK hc)
  have hconn := connected_inverse hD hOK hc hirr
  have hL : ∀ q ∈ p :: K, q ∈ N.vars := by
    intro q hq
    rcases List.mem_cons.1 hq with rfl | hq
    · exact hpv
    · exact hK q hq
  have hnL : n ∉ p :: K := by
    simp only [List.mem_cons, not_or]
    exact ⟨Ne.symm hpn, hnK⟩
  have hmap : ∀ w, (p :: K).map (Function.update (fun _ => 0) p w) = w :: K.map (fun _ => 0) := by
    intro w
    rw [List.map_cons, Function.update_self]
    congr 1
    refine List.map_congr_left (fun q hq => ?_)
    rw [Function.update_of_ne (by rintro rfl; exact hpK hq)]
  have hin : ∀ w, w < N.card p → ∀ q ∈ N.vars, Function.update (fun _ => 0) p w q < N.card q := by
    intro w hw q hq
    by_cases e : q = p
    · subst e; rwa [Function.update_self]
    · rw [Function.update_of_ne e]; exact hOK.pos q hq
  have hpos : ∀ w, w < N.card p → 0 < share N π n (p :: K) x (w :: K.map (fun _ => 0)) := fun w hw => by
    rw [← hmap w]
    exact share_positive hD hOK hc hirr hπ hn hL hnL (hin w hw) hx
  refine ⟨fun _ => 0, fun q hq => hOK.pos q hq, x, y, z, z', hx, hy, hyx, hz, hz', ne_of_lt ?_⟩
  unfold meanRate
  rw [div_lt_div_iff₀ (hpos z hz) (hpos z' hz')]
  -- the rate of a move is a function of the states of the parents
  have hrate : ∀ a ∈ N.joint, N.state a n = x → N.inverseRates a n y = N.inverseAt n (N.parentsAt n (N.state a)) x y := by
    intro a ha hs
    exact inverse_at hD hOK hc hn hyx ((mem_joint hOK).1 ha) ⟨hs, rfl⟩
  have hcirc : ∀ w a, Circumstances N n (p :: K) x (w :: K.map (fun _ => 0)) a → N.state a n = x ∧ N.state a p = w := by
    intro w a h
    rw [← hmap w, circumstances_iff] at h
    refine ⟨h.1, ?_⟩
    rw [h.2 p (by simp), Function.update_self]
  have hex : ∀ w, w < N.card p → ∃ a ∈ N.joint, Circumstances N n (p :: K) x (w :: K.map (fun _ => 0)) a := by
    intro w hw
    by_contra hcon
    push Not at hcon
    have h0 : share N π n (p :: K) x (w :: K.map (fun _ => 0)) = 0 := Finset.sum_eq_zero (fun a ha => if_neg (hcon a ha))
    exact (hpos w hw).ne' h0
  unfold flux share
  rw [mul_comm (∑ a ∈ N.joint, if Circumstances N n (p :: K) x (z' :: K.map (fun _ => 0)) a then π a * N.inverseRates a n y else 0), Finset.sum_mul_sum, Finset.sum_mul_sum,
    ← Finset.sum_product', ← Finset.sum_product']
  have hcmp : ∀ a ∈ N.joint, ∀ b ∈ N.joint, N.state a n = x ∧ N.state a p = z → N.state b n = x ∧ N.state b p = z' →
      N.inverseRates a n y < N.inverseRates b n y := by
    intro a ha b hb h1 h2
    rw [hrate a ha h1.1, hrate b hb h2.1]
    exact hlt _ _ ((mem_joint hOK).1 ha).2 ((mem_joint hOK).1 hb).2 h1.2 h2.2
  obtain ⟨a, ha, hca⟩ := hex z hz
  obtain ⟨b, hb, hcb⟩ := hex z' hz'
  refine Finset.sum_lt_sum (fun ab hab => ?_) ⟨(a, b), Finset.mem_product.2 ⟨ha, hb⟩, ?_⟩
  · obtain ⟨ha', hb'⟩ := Finset.mem_product.1 hab
    by_cases h1 : Circumstances N n (p :: K) x (z :: K.map (fun _ => 0)) ab.1
    · by_cases h2 : Circumstances N n (p :: K) x (z' :: K.map (fun _ => 0)) ab.2
      · rw [if_pos h1, if_pos h2, if_pos h1, if_pos h2]
        have := (hcmp _ ha' _ hb' (hcirc z _ h1) (hcirc z' _ h2)).le
        have p1 := hπ.nonneg _ ha'
        have p2 := hπ.nonneg _ hb'
        nlinarith [mul_nonneg p1 p2]
      · rw [if_neg h2, if_neg h2, mul_zero, mul_zero]
    · rw [if_neg h1, if_neg h1, zero_mul, zero_mul]
  · simp only [if_pos hca, if_pos hcb]
    have := hcmp _ ha _ hb (hcirc z _ hca) (hcirc z' _ hcb)
    have p1 := stationary_pos hOK hU hconn hπ ((mem_joint hOK).1 ha)
    have p2 := stationary_pos hOK hU hconn hπ ((mem_joint hOK).1 hb)
    nlinarith [mul_pos p1 p2]

/-- **C196** The same without the stationary process: it is enough that every parent tells, which can be read off the intensities of the network. -/
theorem telling_network_recovered (hcl : NoSuffixClash N.vars) (hT : "Time" ∉ N.vars) (hc : N.Conservative) (hpos : N.AllPositive) {c : Nat} (hc2 : 2 ≤ c)
    (hcard : ∀ v ∈ N.vars, N.card v = c) (hns : ∀ v ∈ N.vars, v ∉ N.parents v) (htell : ∀ n ∈ N.vars, ∀ p ∈ N.parents n, Tells N p n)
    (es : List Edge) {τ α : ℝ} (hτ : 0 < τ) (hα : 0 < α) {R : List (List Bool)} {known : List Edge}
    (hR : buildRemovable (builtStruct N.vars (N.vars.map N.card) es) N.vars.length known = .ok R) (hknown : ∀ e ∈ known, e ∈ N.edges)
    (hcand : ∀ n ∈ N.vars, ∃ q ∈ N.vars, q ≠ n ∧ (q, n) ∉ known) {a : SBArgs}
    (hopt : a.optimizer = "tabu") (hmp : a.maxParents = none) (htl : ∀ k, a.tabuLength = some k → (N.vars.length : ℤ) - 1 ≤ k)
    (htd : ∀ k, a.tabuDuration = some k → (N.vars.length : ℤ) - 1 ≤ |k|) (hpat : ∀ m, a.patience = some m → (N.vars.length : ℤ) - 1 ≤ m + 1)
    (hit : (N.vars.length - 1) * 2 ^ (N.vars.length - 1) ≤ a.iterations) :
    Tendsto (fun m => drawLaw N.vars.length P {ω | ¬ Recovers N es τ α R a [sampledRows net C m ω]}) atTop (𝓝 0) := by
  have hirr := irreducible_of_allPositive hOK hpos
  obtain ⟨π, hπ, -⟩ := sample_stationary hD hOK hc hirr
  exact sampled_network_recovered hD hOK C hcl hT hc hpos hc2 hcard hns hπ
    (fun n hn p hp K hK hpK hnK => tells_matters hD hOK hc hirr hπ hn hp (by rintro rfl; exact hns _ hn hp) (htell n hn p hp) hK hpK hnK)
    es hτ hα hR hknown hcand hopt hmp htl htd hpat hit

end

/-! ## Non-vacuity -/

namespace Demo

/-- `X` tells about `Y`: in the sampled process `Y` leaves its state 0 at rate 1 when `X` is 0, at rate 2 when `X` is 1. -/
theorem pair_tells : Tells pairCtbn "X" "Y" := by
  refine ⟨0, 1, 0, 1, by decide, by decide, by decide, by decide, by decide, fun f g _ _ hf hg => ?_⟩
  have h1 : pairCtbn.parentsAt "Y" f = [0] := by rw [← hf]; rfl
  have h2 : pairCtbn.parentsAt "Y" g = [1] := by rw [← hg]; rfl
  rw [h1, h2]
  have e1 : pairCtbn.intensityAt "Y" [0] 0 1 = 1 := by decide +kernel
  have e2 : pairCtbn.exitAt "Y" [0] 0 = 1 := by decide +kernel
  have e3 : pairCtbn.intensityAt "Y" [1] 0 1 = 1 / 2 := by decide +kernel
  have e4 : pairCtbn.exitAt "Y" [1] 0 = 1 / 2 := by decide +kernel
  unfold Ctbn.inverseAt
  rw [e1, e2, e3, e4]
  norm_num

theorem pair_parents_tell : ∀ n ∈ pairCtbn.vars, ∀ p ∈ pairCtbn.parents n, Tells pairCtbn p n := by
  intro n hn p hp
  have : n = "X" ∨ n = "Y" := by simpa [pairCtbn] using hn
  rcases this with rfl | rfl
  · simp [pairCtbn] at hp
  · have : p = "X" := by simpa [pairCtbn] using hp
    subst this
    exact pair_tells

theorem pair_edges : pairCtbn.edges = {("X", "Y")} := by decide

/-- C196: with the default arguments the network `X → Y` is recovered. -/
example : Tendsto (fun m => drawLaw 2 (Measure.infinitePi choiceLaw)
      {ω | ¬ Recovers pairCtbn [] 1 1 [[true, true], [true, true]] defaultArgs [sampledRows pairNet someCategorical m ω]}) atTop (𝓝 0) :=
  telling_network_recovered pair_describes pair_ok someCategorical (by unfold NoSuffixClash; decide) (by decide) pair_conservative pair_allPositive (le_refl 2) (fun _ _ => rfl) (by decide)
    pair_parents_tell [] one_pos one_pos (known := []) rfl (by simp) (by decide) rfl rfl (by simp [defaultArgs]) (by simp [defaultArgs]) (by simp [defaultArgs]) (by decide)

theorem pair_matters : ∀ n ∈ pairCtbn.vars, ∀ p ∈ pairCtbn.parents n, ∀ K : List Label, (∀ q ∈ K, q ∈ pairCtbn.vars) → p ∉ K → n ∉ K →
    StationaryMatters pairCtbn pairCtbn.inverseRates pairLaw n K p := fun n hn p hp K hK hpK hnK =>
  tells_matters pair_describes pair_ok pair_conservative pair_irreducible pair_stationary hn hp
    (by rintro rfl; exact (by decide : ∀ v ∈ pairCtbn.vars, v ∉ pairCtbn.parents v) _ hn hp) (pair_parents_tell n hn p hp) hK hpK hnK

/-- C195: the same from the stationary probabilities. -/
example : Tendsto (fun m => drawLaw 2 (Measure.infinitePi choiceLaw)
      {ω | ¬ Recovers pairCtbn [] 1 1 [[true, true], [true, true]] defaultArgs [sampledRows pairNet someCategorical m ω]}) atTop (𝓝 0) :=
  sampled_network_recovered pair_describes pair_ok someCategorical (by unfold NoSuffixClash; decide) (by decide) pair_conservative pair_allPositive (le_refl 2) (fun _ _ => rfl) (by decide)
    pair_stationary pair_matters
    [] one_pos one_pos (known := []) rfl (by simp) (by decide) rfl rfl (by simp [defaultArgs]) (by simp [defaultArgs]) (by simp [defaultArgs]) (by decide)

end Demo

end

end PyCTBN
