import Verif.Props.ExactRecovery
import Verif.Lemmas.ScipyAlong

/-!
# C227: at fixed significance levels that are small enough, constraint-based estimation rarely errs on long trajectories
-/

open MeasureTheory ProbabilityTheory Filter
open scoped ENNReal Topology

namespace PyCTBN
open Spec JumpPaths Indep

noncomputable section

/-- Given the states of all parents, the number of observed moves and the rate of the process times the observed time differ by more than `δ` with a probability of
at most the order of the size over `δ²`. -/
def RootDeviations (N : Ctbn) {Ω ι : Type} [MeasurableSpace Ω] (μ : Measure Ω) (l : Filter ι) (size : ι → ℝ) (rows : ι → Ω → List RawTraj) : Prop :=
  ∀ v : Label, v ∈ N.vars → ∀ L : List Label, (∀ p ∈ L, p ∈ N.vars) → (∀ p ∈ N.parents v, p ∈ L) → ∀ x y : Nat, y < N.card v → y ≠ x → ∀ u : List Nat,
    ∃ B, 0 ≤ B ∧ ∀ᶠ m in l, ∀ δ, 0 < δ → δ ≤ size m → μ {ω | δ ≤ |(rawTransitions N.vars (rows m ω) v L x y u : ℝ)
      - N.inverseAt v (N.parentPart v L u) x y * (rawResidence N.vars (rows m ω) v L x u : ℝ)|} ≤ ENNReal.ofReal (B * size m / δ ^ 2)

theorem Likely.comp {Ω ι κ : Type} [MeasurableSpace Ω] {μ : Measure Ω} {l : Filter ι} {l' : Filter κ} {Q : ι → Ω → Prop} (h : Likely μ l Q) {f : κ → ι}
    (hf : Tendsto f l' l) : Likely μ l' (fun j ω => Q (f j) ω) := by
  have := Tendsto.comp (show Tendsto (fun m => μ {ω | ¬ Q m ω}) l (𝓝 0) from h) hf
  exact this

/-- So the squared deviation is likely small on any scale larger than the size. -/
theorem RootDeviations.likely {N : Ctbn} {Ω ι : Type} [MeasurableSpace Ω] {μ : Measure Ω} {l : Filter ι} {size : ι → ℝ} {rows : ι → Ω → List RawTraj}
    (hdev : RootDeviations N μ l size rows) (hsize : Tendsto size l atTop) {at' : ℕ → ι} (hat : Tendsto at' atTop l) {h : ℕ → ℝ} (hh : Tendsto h atTop atTop)
    (hslow : Tendsto (fun j => h j / size (at' j)) atTop (𝓝 0)) {ε : ℝ} (hε : 0 < ε)
    {v : Label} (hv : v ∈ N.vars) {L : List Label} (hL : ∀ p ∈ L, p ∈ N.vars) (hP : ∀ p ∈ N.parents v, p ∈ L) {x y : Nat} (hy : y < N.card v) (hyx : y ≠ x) (u : List Nat) :
    Likely μ atTop (fun j ω => ((rawTransitions N.vars (rows (at' j) ω) v L x y u : ℝ)
      - N.inverseAt v (N.parentPart v L u) x y * (rawResidence N.vars (rows (at' j) ω) v L x u : ℝ)) ^ 2 / (size (at' j) * h j) < ε) := by
  obtain ⟨B, hB, hb⟩ := hdev v hv L hL hP x y hy hyx u
  have hlim : Tendsto (fun j => ENNReal.ofReal (B / ε / h j)) atTop (𝓝 0) := by
    rw [← ENNReal.ofReal_zero]
    exact ENNReal.tendsto_ofReal (tendsto_const_nhds.div_atTop hh)
  refine tendsto_of_tendsto_of_tendsto_of_le_of_le' tendsto_const_nhds hlim (.of_forall (fun _ => zero_le)) ?_
  have hpos := (hsize.comp hat).eventually_gt_atTop 0
  filter_upwards [hat.eventually hb, hpos, hh.eventually_gt_atTop 0, hslow.eventually (gt_mem_nhds (by positivity : (0 : ℝ) < 1 / ε))] with j hj hs0 h0 hsl
  have hs : 0 < size (at' j) := hs0
  have hprod : 0 < ε * (size (at' j) * h j) := by positivity
  have hle : Real.sqrt (ε * (size (at' j) * h j)) ≤ size (at' j) := by
    rw [Real.sqrt_le_left hs.le]
    rw [div_lt_div_iff₀ hs hε] at hsl
    nlinarith
  refine (measure_mono ?_).trans ((hj _ (Real.sqrt_pos.2 hprod) hle).trans (ENNReal.ofReal_le_ofReal (le_of_eq ?_)))
  · intro ω hω
    have hω : ¬ (_ / (size (at' j) * h j) < ε) := hω
    rw [not_lt, le_div_iff₀ (by positivity)] at hω
    exact Real.sqrt_le_iff.2 ⟨abs_nonneg _, by rw [sq_abs]; exact hω⟩
  · rw [Real.sq_sqrt hprod.le]
    field_simp

/-- Independent trajectories put together. -/
theorem RootDeviations.many {N : Ctbn} {Ω ι : Type} [MeasurableSpace Ω] {μ : Measure Ω} [IsProbabilityMeasure μ] {l : Filter ι} {size : ι → ℝ} {rows : ι → Ω → List RawTraj}
    (hdev : RootDeviations N μ l size rows) (hsize : Tendsto size l atTop) {K : Nat} (hK : 0 < K) :
    RootDeviations N (Measure.infinitePi (fun _ : ℕ => μ)) l size (fun m ω => (List.range K).flatMap (fun i => rows m (ω i))) := by
  intro v hv L hL hP x y hy hyx u
  obtain ⟨B, hB, hb⟩ := hdev v hv L hL hP x y hy hyx u
  have hK' : (0 : ℝ) < K := by exact_mod_cast hK
  refine ⟨K * (B * K ^ 2), by positivity, ?_⟩
  filter_upwards [hb, hsize.eventually_gt_atTop 0] with m hm hs δ hδ hδs
  have hδK : δ / K ≤ size m := (div_le_self hδ.le (by exact_mod_cast hK)).trans hδs
  have hone : ∀ i : ℕ, Measure.infinitePi (fun _ : ℕ => μ) {ω | δ / K ≤ |(rawTransitions N.vars (rows m (ω i)) v L x y u : ℝ)
      - N.inverseAt v (N.parentPart v L u) x y * (rawResidence N.vars (rows m (ω i)) v L x u : ℝ)|} ≤ ENNReal.ofReal (B * K ^ 2 * size m / δ ^ 2) := by
    intro i
    have hev : MeasurePreserving (fun ω : ℕ → Ω => ω i) (Measure.infinitePi (fun _ : ℕ => μ)) μ := measurePreserving_eval_infinitePi _ i
    have := Measure.le_map_apply (μ := Measure.infinitePi (fun _ : ℕ => μ)) (measurable_pi_apply i).aemeasurable
      {a | δ / K ≤ |(rawTransitions N.vars (rows m a) v L x y u : ℝ) - N.inverseAt v (N.parentPart v L u) x y * (rawResidence N.vars (rows m a) v L x u : ℝ)|}
    rw [hev.map_eq] at this
    refine this.trans ((hm _ (by positivity) hδK).trans (ENNReal.ofReal_le_ofReal (le_of_eq ?_)))
    field_simp
  have hsub : {ω : ℕ → Ω | δ ≤ |(rawTransitions N.vars ((List.range K).flatMap (fun i => rows m (ω i))) v L x y u : ℝ)
      - N.inverseAt v (N.parentPart v L u) x y * (rawResidence N.vars ((List.range K).flatMap (fun i => rows m (ω i))) v L x u : ℝ)|} ⊆
      ⋃ i ∈ Finset.range K, {ω : ℕ → Ω | δ / K ≤ |(rawTransitions N.vars (rows m (ω i)) v L x y u : ℝ)
        - N.inverseAt v (N.parentPart v L u) x y * (rawResidence N.vars (rows m (ω i)) v L x u : ℝ)|} := by
    intro ω hω
    have hω : δ ≤ |(rawTransitions N.vars ((List.range K).flatMap (fun i => rows m (ω i))) v L x y u : ℝ)
      - N.inverseAt v (N.parentPart v L u) x y * (rawResidence N.vars ((List.range K).flatMap (fun i => rows m (ω i))) v L x u : ℝ)| := hω
    by_contra hcon
    simp only [Set.mem_iUnion, not_exists] at hcon
    rw [rawTransitions_flatMap, rawResidence_flatMap, Finset.mul_sum, ← Finset.sum_sub_distrib] at hω
    refine absurd (hω.trans (Finset.abs_sum_le_sum_abs _ _)) (not_le.2 ?_)
    refine (Finset.sum_lt_sum_of_nonempty (g := fun _ => δ / K) (Finset.nonempty_range_iff.2 hK.ne') (fun i hi => not_le.1 (hcon i hi))).trans_le ?_
    rw [Finset.sum_const, Finset.card_range, nsmul_eq_mul, mul_div_cancel₀ _ hK'.ne']
  refine (measure_mono hsub).trans ((measure_biUnion_finset_le _ _).trans ((Finset.sum_le_sum (fun i _ => hone i)).trans ?_))
  rw [Finset.sum_const, Finset.card_range, nsmul_eq_mul, ← ENNReal.ofReal_natCast, ← ENNReal.ofReal_mul hK'.le]
  exact ENNReal.ofReal_le_ofReal (le_of_eq (by ring))

section
variable {net : SampleNet} {N : Ctbn} (hD : Describes net N) (hOK : N.OK)
include hD hOK
variable {U : Type} [MeasurableSpace U] {P : Measure U} [IsProbabilityMeasure P] (C : Categorical U P)

theorem sampled_deviations (hc : N.Conservative) (hirr : N.Irreducible) {K : Nat} (hK : 0 < K) :
    RootDeviations N (manyLaw N.vars.length P) atTop (fun m : ℕ => (m : ℝ)) (fun m ω => pooledRows net C m K ω) ∧
    RootDeviations N (manyLaw N.vars.length P) atTop (fun T : ℝ => T) (fun T ω => pooledEnd net C T K ω) := by
  have hdraw : IsProbabilityMeasure (drawLaw N.vars.length P) := by unfold drawLaw; infer_instance
  constructor
  · have h1 : RootDeviations N (drawLaw N.vars.length P) atTop (fun m : ℕ => (m : ℝ)) (fun m ω => [sampledRows net C m ω]) := by
      intro v hv L hL hP x y hy hyx u
      obtain ⟨B, hB, h⟩ := sample_rate_deviation hD hOK C hc hirr hv hL hP hyx hy u
      exact ⟨B, hB, (eventually_ge_atTop 1).mono (fun m hm δ hδ _ => h m hm hδ)⟩
    have := h1.many tendsto_natCast_atTop_atTop hK
    simp only [pooledRows, List.map_eq_flatMap]
    exact this
  · have h1 : RootDeviations N (drawLaw N.vars.length P) atTop (fun T : ℝ => T) (fun T ω => [endRows net C T ω]) := by
      intro v hv L hL hP x y hy hyx u
      obtain ⟨B, hB, h⟩ := end_rate_deviation hD hOK C hc hirr hv hL hP hyx hy u
      exact ⟨B, hB, (eventually_ge_atTop 1).mono (fun T hT δ hδ hδT => h hT hδ hδT)⟩
    have := h1.many tendsto_id hK
    simp only [pooledEnd, List.map_eq_flatMap]
    exact this

omit C in
/-- Constraint-based estimation at levels that fall fast enough along larger and larger rows finds exactly the edges of the network. -/
theorem edges_found_along {Ω ι : Type} [MeasurableSpace Ω] {μ : Measure Ω} {l : Filter ι} {size : ι → ℝ} {k : ℝ} {rows : ι → Ω → List RawTraj} {π : List Nat → ℝ}
    (hrows : TypicalRows N π μ l size k rows) (hdev : RootDeviations N μ l size rows) (hcl : NoSuffixClash N.vars) (hT : "Time" ∉ N.vars) (hc : N.Conservative)
    (hpos : N.AllPositive) {c : Nat} (hc2 : 2 ≤ c) (hcard : ∀ v ∈ N.vars, N.card v = c) (hns : ∀ v ∈ N.vars, v ∉ N.parents v) (hπ : Stationary N N.inverseRates π)
    (hmat : ∀ n ∈ N.vars, ∀ p ∈ N.parents n, ∀ K : List Label, (∀ q ∈ K, q ∈ N.vars) → p ∉ K → n ∉ K → StationaryMatters N N.inverseRates π n K p)
    (es : List Edge) {Q : ℕ → IndepParams} {h : ℕ → ℝ} {at' : ℕ → ι} (hat : Tendsto at' atTop l) (hQ : LevelsAlong Q (fun j => size (at' j)) h c)
    {known : List Edge} (hknown : ∀ e ∈ known, e ∈ N.edges) :
    Likely μ atTop (fun j ω => FindsEdges N es (Q j) known (rows (at' j) ω)) := by
  have hirr := irreducible_of_allPositive hOK hpos
  have hpace := hrows.pos
  set s := builtStruct N.vars (N.vars.map N.card) es with hs
  have hc0 : 0 < c := by omega
  have hfr : ∀ f : Label → Nat, (∀ q, f q < c) → ∀ q ∈ N.vars, f q < N.card q := fun f hf q hq => by rw [hcard q hq]; exact hf q
  let par : Label → List Label := fun n => if n ∈ N.vars then N.parents n else []
  have hparv : ∀ n ∈ N.vars, par n = N.parents n := fun n hn => if_pos hn
  have hsl : ∀ L ∈ N.vars.sublists, ∀ q ∈ L, q ∈ N.vars := fun L hL q hq => (List.mem_sublists.1 hL).subset hq
  obtain ⟨ε, hε, hperf⟩ := tests_right_along (s := s) hc2 hQ (hrows.grows.comp hat) (truth := N.edges) (par := par)
    (fun p n => by
      rw [mem_edges]
      by_cases hn : n ∈ N.vars
      · rw [hparv n hn]; simp [hn]
      · simp [par, hn])
    (fun n q hq => by
      by_cases hn : n ∈ N.vars
      · rw [hparv n hn] at hq
        exact ⟨hOK.closed n hn q hq, by rintro rfl; exact hns _ hn hq⟩
      · simp [par, hn] at hq)
    (S := fun n L x u => share N π n L x u / k) (μ := fun n L x y u => flux N N.inverseRates π n L x y u / k)
    (ρ := fun n L x y u => N.inverseAt n (N.parentPart n L u) x y)
    (fun n hn L hL hnL f hf x hx => div_pos (share_positive hD hOK hc hirr hπ hn (hsl L hL) hnL (hfr f hf) (by rw [hcard n hn]; exact hx)) hpace)
    (fun n hn L hL hnL f hf x hx y hy hyx => div_pos (flux_positive hD hOK hc hpos hπ hn (hsl L hL) hnL (hfr f hf) (by rw [hcard n hn]; exact hx)
      (by rw [hcard n hn]; exact hy) hyx) hpace)
    (fun n hn L hL hnL hP f hf x hx y hy hyx => by
      rw [hparv n hn] at hP
      rw [parentPart_map N n hP]
      exact inverseAt_positive hOK hc hpos hD hn (hns n hn) (hfr f hf) (by rw [hcard n hn]; exact hx) (by rw [hcard n hn]; exact hy) hyx)
    (fun n hn L hL L' hL' hP hP' f x y => by
      rw [hparv n hn] at hP hP'
      rw [parentPart_map N n hP, parentPart_map N n hP'])
    (fun p n he K hK hpK hnK => by
      obtain ⟨h1, h2⟩ := mem_edges.1 he
      have hp := hOK.closed n h1 p h2
      obtain ⟨f, hf, x, y, hx, hy, hyx, hne⟩ := matters_beyond hD hOK hpK (hmat n h1 p h2 K hK hpK hnK)
      rw [hcard n h1] at hx hy
      refine ⟨fun q => if q ∈ N.vars then f q else 0, fun q => ?_, x, y, hx, hy, hyx, ?_⟩
      · dsimp only
        split_ifs with hq
        · rw [← hcard q hq]; exact hf q hq
        · exact hc0
      · have hmem : ∀ K' : List Label, (∀ q ∈ K', q ∈ N.vars) → ∀ q, q ∈ ordered s K' ↔ q ∈ K' := fun K' hK' q => by
          unfold ordered
          rw [List.mem_filter, decide_eq_true_eq]
          exact ⟨fun h => h.2, fun h => ⟨hK' q h, h⟩⟩
        have hmap : ∀ K' : List Label, (∀ q ∈ K', q ∈ N.vars) → K'.map (fun q => if q ∈ N.vars then f q else 0) = K'.map f := fun K' hK' =>
          List.map_congr_left (fun q hq => if_pos (hK' q hq))
        have hpK' : ∀ q ∈ p :: K, q ∈ N.vars := by
          intro q hq
          rcases List.mem_cons.1 hq with rfl | hq
          · exact hp
          · exact hK q hq
        rw [share_congr N π n (hmem K hK), share_congr N π n (hmem _ hpK'), flux_congr N _ π n (hmem K hK), flux_congr N _ π n (hmem _ hpK'), hmap K hK, hmap _ hpK',
          div_div_div_cancel_right₀ hpace.ne', div_div_div_cancel_right₀ hpace.ne']
        exact hne)
  -- the statistics of the rows are close, the rows usable
  have hclose : Likely μ atTop (fun j ω => ∀ n, n ∈ N.vars → ∀ L, L ∈ N.vars.sublists → ∀ u, u ∈ assignments (L.map (fun _ => c)) → ∀ x, x < c →
      |(rawResidence N.vars (rows (at' j) ω) n L x u : ℝ) / size (at' j) - share N π n L x u / k| < ε ∧ ∀ y, y < c → y ≠ x →
      |(rawTransitions N.vars (rows (at' j) ω) n L x y u : ℝ) / size (at' j) - flux N N.inverseRates π n L x y u / k| < ε ∧
      ((∀ p ∈ par n, p ∈ L) → ((rawTransitions N.vars (rows (at' j) ω) n L x y u : ℝ)
        - N.inverseAt n (N.parentPart n L u) x y * (rawResidence N.vars (rows (at' j) ω) n L x u : ℝ)) ^ 2 / (size (at' j) * h j) < ε)) := by
    refine Likely.all (mem_list_finite _) (fun n hn => Likely.all (mem_list_finite _) (fun L hL => Likely.all (mem_list_finite _) (fun u hu =>
      Likely.all (Set.finite_lt_nat c) (fun x hx => ?_))))
    obtain ⟨g1, g2⟩ := hrows.close hε hn (hsl L hL) x u
    refine (g1.comp hat).and (Likely.all (Set.finite_lt_nat c) (fun y hy => Likely.imp (fun hyx => ?_)))
    obtain ⟨g3, g4⟩ := g2 y (by rw [hcard n hn]; exact hy) hyx
    rw [hparv n hn]
    exact (g3.comp hat).and (Likely.imp (fun hP => (hdev.likely hrows.grows hat hQ.grow hQ.slow hε hn (hsl L hL) hP (by rw [hcard n hn]; exact hy) hyx u)))
  refine (hclose.and (hrows.usable.comp hat)).mono ?_
  filter_upwards [hperf] with j hm ω ⟨h1, h2⟩
  obtain ⟨⟨p, p1, p2, p3⟩, hdata, hstat⟩ := usable_builds hOK hcl hT hcard h2 es
  have hd : DataOK s (builtTraj N.vars (rows (at' j) ω)) := ⟨hdata.data.origCols, hdata.data.len, hdata.data.width, hdata.data.idx_lt, hdata.data.cur, hdata.data.nxt⟩
  have hw : WFStructure s := ⟨hdata.wf.1, hdata.wf.2, hdata.wf.3⟩
  have hrun : UniformRun ⟨s, s.total, builtTraj N.vars (rows (at' j) ω), independenceTest (Q j)⟩ (Q j) c :=
    ⟨rfl, hw, hd, hdata.cards, hc0, rfl, List.nodup_range⟩
  have hP := hm _ hrun (fun n hn L hL u hu x hx => by
    obtain ⟨g1, g2⟩ := h1 n hn L hL u hu x hx
    rw [(hstat n hn L (hsl L hL) x u).1]
    refine ⟨g1, fun y hy hyx => ?_⟩
    rw [(hstat n hn L (hsl L hL) x u).2 y]
    exact g2 y hy hyx)
  have hidx : ∀ i ∈ s.indexes, i < s.total := fun i hi => List.mem_range.1 hi
  have hnet : ∀ e ∈ N.edges.toList, e.1 ∈ s.labels ∧ e.2 ∈ s.labels ∧ e.1 ≠ e.2 := by
    rintro ⟨q, n⟩ he
    obtain ⟨a1, a2⟩ := mem_edges.1 (Finset.mem_toList.1 he)
    refine ⟨hOK.closed n a1 q a2, a1, ?_⟩
    intro e
    have e : q = n := e
    subst e
    exact hns _ a1 a2
  obtain ⟨M, hM⟩ := (removable_matrix_built_iff (s := s) s.total known).2 (fun e he => by
    obtain ⟨a1, a2, -⟩ := hnet e (Finset.mem_toList.2 (hknown e he))
    obtain ⟨i, hi, hi'⟩ := getNodeIndx_mem hw a1
    obtain ⟨j, hj, hj'⟩ := getNodeIndx_mem hw a2
    exact ⟨i, j, hi', hj', hidx i hi, hidx j hj⟩)
  obtain ⟨es', e0, e1, e2⟩ := constraint_based_recovers_exactly (net := N.edges.toList) hw List.nodup_range hidx rfl hnet (Finset.nodup_toList _)
    (by simpa only [Finset.mem_toList] using hP) (known := known) (fun e he => Finset.mem_toList.2 (hknown e he)) hM
  exact ⟨p, s, _, p1, p2, p3, M, es', hM, e1, e2, e0.nodup_iff.2 (Finset.nodup_toList _), fun e => by rw [e0.mem_iff, Finset.mem_toList]⟩

omit C in
/-- On typical rows, small fixed levels make errors rare once the rows are long. -/
theorem typical_small_levels {Ω ι : Type} [MeasurableSpace Ω] {μ : Measure Ω} {l : Filter ι} [l.IsCountablyGenerated] {size : ι → ℝ} {k : ℝ} {rows : ι → Ω → List RawTraj}
    {π : List Nat → ℝ} (hrows : TypicalRows N π μ l size k rows) (hdev : RootDeviations N μ l size rows) (hcl : NoSuffixClash N.vars) (hT : "Time" ∉ N.vars)
    (hc : N.Conservative) (hpos : N.AllPositive) {c : Nat} (hc2 : 2 ≤ c) (hcard : ∀ v ∈ N.vars, N.card v = c) (hns : ∀ v ∈ N.vars, v ∉ N.parents v)
    (hπ : Stationary N N.inverseRates π)
    (hmat : ∀ n ∈ N.vars, ∀ p ∈ N.parents n, ∀ K : List Label, (∀ q ∈ K, q ∈ N.vars) → p ∉ K → n ∉ K → StationaryMatters N N.inverseRates π n K p)
    (es : List Edge) (thr : ℝ) {known : List Edge} (hknown : ∀ e ∈ known, e ∈ N.edges) {ε : ℝ≥0∞} (hε : 0 < ε) :
    ∃ a₀ > (0 : ℝ), ∀ α β, 0 < α → α ≤ a₀ → 0 < β → β ≤ a₀ → ∀ᶠ m in l, μ {ω | ¬ FindsEdges N es (scipyParams α β thr) known (rows m ω)} ≤ ε := by
  by_contra hcon
  push Not at hcon
  obtain ⟨V, hV⟩ := l.exists_antitone_basis
  choose a b ha0 ha hb0 hb hfreq using fun j : ℕ => hcon (Real.exp (-(j : ℝ))) (Real.exp_pos _)
  set h : ℕ → ℝ := fun j => -Real.log (max (a j) (b j)) with hh
  have hmax : ∀ j, 0 < max (a j) (b j) := fun j => lt_max_of_lt_left (ha0 j)
  have hhj : ∀ j : ℕ, (j : ℝ) ≤ h j := fun j => by
    have := Real.log_le_log (hmax j) (max_le (ha j) (hb j))
    rw [Real.log_exp] at this
    rw [hh]; dsimp only; linarith
  have hexp : ∀ j, Real.exp (-h j) = max (a j) (b j) := fun j => by rw [hh]; dsimp only; rw [neg_neg, Real.exp_log (hmax j)]
  have hex : ∀ j : ℕ, ∃ m, m ∈ V j ∧ (j : ℝ) ≤ size m * a j ∧ (j : ℝ) ≤ size m * b j ∧ h j * ((j : ℝ) + 1) ≤ size m ∧
      ε < μ {ω | ¬ FindsEdges N es (scipyParams (a j) (b j) thr) known (rows m ω)} := by
    intro j
    have hev : ∀ᶠ m in l, m ∈ V j ∧ (j : ℝ) / a j ≤ size m ∧ (j : ℝ) / b j ≤ size m ∧ h j * ((j : ℝ) + 1) ≤ size m := by
      filter_upwards [(hV.toHasBasis.mem_of_mem trivial : V j ∈ l), hrows.grows.eventually_ge_atTop ((j : ℝ) / a j), hrows.grows.eventually_ge_atTop ((j : ℝ) / b j),
        hrows.grows.eventually_ge_atTop (h j * ((j : ℝ) + 1))] with m g1 g2 g3 g4
      exact ⟨g1, g2, g3, g4⟩
    obtain ⟨m, g0, g1, g2, g3, g4⟩ := ((hfreq j).and_eventually hev).exists
    exact ⟨m, g1, (div_le_iff₀ (ha0 j)).1 g2, (div_le_iff₀ (hb0 j)).1 g3, g4, g0⟩
  choose m hmV hma hmb hmh hbad using hex
  have hat : Tendsto m atTop l := hV.tendsto hmV
  have hsz : Tendsto (fun j => size (m j)) atTop atTop := hrows.grows.comp hat
  have hslow : Tendsto (fun j => h j / size (m j)) atTop (𝓝 0) := by
    refine tendsto_of_tendsto_of_tendsto_of_le_of_le' tendsto_const_nhds tendsto_one_div_add_atTop_nhds_zero_nat ?_ ?_
    · filter_upwards [hsz.eventually_gt_atTop 0] with j hj
      exact div_nonneg ((Nat.cast_nonneg j).trans (hhj j)) hj.le
    · filter_upwards [hsz.eventually_gt_atTop 0] with j hj
      rw [div_le_div_iff₀ hj (by positivity), one_mul]
      exact hmh j
  have hlev := scipy_along hsz (tendsto_atTop_mono hhj tendsto_natCast_atTop_atTop) hslow ha0 hb0 (fun j => (hexp j).symm ▸ le_max_left _ _)
    (fun j => (hexp j).symm ▸ le_max_right _ _) (tendsto_atTop_mono hma tendsto_natCast_atTop_atTop) (tendsto_atTop_mono hmb tendsto_natCast_atTop_atTop) thr hc2
  have hlik := edges_found_along hD hOK hrows hdev hcl hT hc hpos hc2 hcard hns hπ hmat es hat hlev hknown
  obtain ⟨j, hj⟩ := (hlik.eventually (gt_mem_nhds hε)).exists
  exact absurd hj (not_lt.2 (hbad j).le)

/-- **C227** Small fixed significance levels.  For a network as in C221 and every tolerance there is a bound such that, at any fixed significance levels below the
bound, the probability that constraint-based estimation does not return exactly the edges of the network is within the tolerance once the sampled trajectories are
long enough. -/
theorem network_found_at_small_levels (hcl : NoSuffixClash N.vars) (hT : "Time" ∉ N.vars) (hc : N.Conservative) (hpos : N.AllPositive) {c : Nat} (hc2 : 2 ≤ c)
    (hcard : ∀ v ∈ N.vars, N.card v = c) (hns : ∀ v ∈ N.vars, v ∉ N.parents v) (htell : ∀ n ∈ N.vars, ∀ p ∈ N.parents n, Tells N p n)
    (es : List Edge) (thr : ℝ) {known : List Edge} (hknown : ∀ e ∈ known, e ∈ N.edges) {K : Nat} (hK : 0 < K) {ε : ℝ≥0∞} (hε : 0 < ε) :
    ∃ a₀ > (0 : ℝ), ∀ α β, 0 < α → α ≤ a₀ → 0 < β → β ≤ a₀ →
      (∃ n₀ : ℕ, ∀ n ≥ n₀, manyLaw N.vars.length P {ω | ¬ FindsEdges N es (scipyParams α β thr) known (pooledRows net C n K ω)} ≤ ε) ∧
      (∃ T₀ : ℝ, ∀ T ≥ T₀, manyLaw N.vars.length P {ω | ¬ FindsEdges N es (scipyParams α β thr) known (pooledEnd net C T K ω)} ≤ ε) := by
  have hirr := irreducible_of_allPositive hOK hpos
  obtain ⟨π, hπ, -⟩ := sample_stationary hD hOK hc hirr
  have hmat : ∀ n ∈ N.vars, ∀ p ∈ N.parents n, ∀ K : List Label, (∀ q ∈ K, q ∈ N.vars) → p ∉ K → n ∉ K → StationaryMatters N N.inverseRates π n K p :=
    (fun n hn p hp K hK hpK hnK => tells_matters hD hOK hc hirr hπ hn hp (by rintro rfl; exact hns _ hn hp) (htell n hn p hp) hK hpK hnK)
  obtain ⟨a1, ha1, h1⟩ := typical_small_levels hD hOK (many_typical hD hOK C hc hirr hπ hK) (sampled_deviations hD hOK C hc hirr hK).1 hcl hT hc hpos hc2 hcard hns hπ hmat
    es thr hknown hε
  obtain ⟨a2, ha2, h2⟩ := typical_small_levels hD hOK (many_end_typical hD hOK C hc hirr hπ hK) (sampled_deviations hD hOK C hc hirr hK).2 hcl hT hc hpos hc2 hcard hns hπ hmat
    es thr hknown hε
  refine ⟨min a1 a2, lt_min ha1 ha2, fun α β hα hα' hβ hβ' => ⟨?_, ?_⟩⟩
  · exact eventually_atTop.1 (h1 α β hα (hα'.trans (min_le_left _ _)) hβ (hβ'.trans (min_le_left _ _)))
  · exact eventually_atTop.1 (h2 α β hα (hα'.trans (min_le_right _ _)) hβ (hβ'.trans (min_le_right _ _)))

end

/-! ## Non-vacuity -/

namespace Demo

/-- C227: for `X → Y` and an error rate of at most 1 in 20 some fixed levels do, whatever is known of the edges. -/
example : ∃ a₀ > (0 : ℝ), ∀ α β, 0 < α → α ≤ a₀ → 0 < β → β ≤ a₀ → (∃ n₀ : ℕ, ∀ n ≥ n₀, manyLaw 2 (Measure.infinitePi choiceLaw)
      {ω | ¬ FindsEdges pairCtbn [] (scipyParams α β 5) [] (pooledRows pairNet someCategorical n 10 ω)} ≤ 1 / 20) ∧
    (∃ T₀ : ℝ, ∀ T ≥ T₀, manyLaw 2 (Measure.infinitePi choiceLaw)
      {ω | ¬ FindsEdges pairCtbn [] (scipyParams α β 5) [] (pooledEnd pairNet someCategorical T 10 ω)} ≤ 1 / 20) :=
  network_found_at_small_levels pair_describes pair_ok someCategorical (by unfold NoSuffixClash; decide) (by decide) pair_conservative pair_allPositive (le_refl 2)
    (fun _ _ => rfl) (by decide) pair_parents_tell [] 5 (known := []) (by simp) (by norm_num : 0 < 10) (by simp)

end Demo

end

end PyCTBN
