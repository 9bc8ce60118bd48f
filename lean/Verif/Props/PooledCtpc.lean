import Verif.Props.LonePair
import Verif.Props.SampleCtpc

/-!
# Constraint-based estimation on pooled trajectories with the same `max_tr`: C213
-/

open MeasureTheory ProbabilityTheory Filter
open scoped ENNReal Topology

namespace PyCTBN
open Spec JumpPaths Indep

noncomputable section

section
variable {net : SampleNet} {N : Ctbn} (hD : Describes net N) (hOK : N.OK)
include hD hOK
variable {U : Type} [MeasurableSpace U] {P : Measure U} [IsProbabilityMeasure P] (C : Categorical U P)

/-- Where no time is spent, nothing moves. -/
theorem meanMoves_zero (hc : N.Conservative) {v : Label} (hv : v ∈ N.vars) {L : List Label} (hL : ∀ p ∈ L, p ∈ N.vars) {x : Nat} {u : List Nat} {m : Nat}
    (h0 : meanStay net N C m v L x u = 0) {y : Nat} (hy : y ≠ x) : meanMoves net N C m v L x y u = 0 := by
  unfold meanMoves
  rw [integral_eq_zero_of_ae]
  filter_upwards [rows_never hD hOK C hc hv hL m h0] with ω hω
  simp [hω.2 y hy]

theorem meanStay_nonneg (hc : N.Conservative) {v : Label} (hv : v ∈ N.vars) {L : List Label} (hL : ∀ p ∈ L, p ∈ N.vars) (x : Nat) (u : List Nat) (m : Nat) :
    0 ≤ meanStay net N C m v L x u := by
  have : IsProbabilityMeasure (manyLaw N.vars.length P) := by unfold manyLaw drawLaw; infer_instance
  obtain ⟨ω, h | h⟩ := (pooled_settles hD hOK C hc hv hL x u m).exists
  · exact h.1.ge
  · exact h.1.le

omit hD hOK in
/-- If the rates differ between two states of `p`, then one of them differs from the rate whatever the state of `p`. -/
theorem pooledMatters_beyond {m : Nat} {n p : Label} {K : List Label} (hpK : p ∉ K) (h : PooledMatters net N C m n K p) :
    ∃ f : Label → Nat, (∀ q ∈ N.vars, f q < N.card q) ∧ ∃ x y, x < N.card n ∧ y < N.card n ∧ y ≠ x ∧
      meanMoves net N C m n K x y (K.map f) / meanStay net N C m n K x (K.map f)
        ≠ meanMoves net N C m n (p :: K) x y ((p :: K).map f) / meanStay net N C m n (p :: K) x ((p :: K).map f) := by
  obtain ⟨f, hf, x, y, z, z', hx, hy, hyx, hz, hz', -, -, hne⟩ := h
  have hmap : ∀ w, (p :: K).map (Function.update f p w) = w :: K.map f ∧ K.map (Function.update f p w) = K.map f := by
    intro w
    have : K.map (Function.update f p w) = K.map f := List.map_congr_left (fun q hq => Function.update_of_ne (by rintro rfl; exact hpK hq) _ _)
    exact ⟨by rw [List.map_cons, Function.update_self, this], this⟩
  have hin : ∀ w, w < N.card p → ∀ q ∈ N.vars, Function.update f p w q < N.card q := by
    intro w hw q hq
    by_cases e : q = p
    · subst e; rwa [Function.update_self]
    · rw [Function.update_of_ne e]; exact hf q hq
  by_cases h1 : meanMoves net N C m n K x y (K.map f) / meanStay net N C m n K x (K.map f)
      = meanMoves net N C m n (p :: K) x y (z :: K.map f) / meanStay net N C m n (p :: K) x (z :: K.map f)
  · refine ⟨Function.update f p z', hin z' hz', x, y, hx, hy, hyx, ?_⟩
    rw [(hmap z').1, (hmap z').2, h1]
    exact hne
  · refine ⟨Function.update f p z, hin z hz, x, y, hx, hy, hyx, ?_⟩
    rw [(hmap z).1, (hmap z).2]
    exact h1

/-- **C213** Constraint-based estimation on many trajectories.  Trajectories sampled by independent calls with the same `max_tr = m ≥ 1` are pooled; all variables have `c ≥ 2` states and the quantiles
of the F distribution tend to 1 with its degrees of freedom.  If on the rows of such trajectories every move of `n` has a positive mean number in all circumstances, and `p` matters to `n` whatever other
variables are taken into account, then almost surely, once the trajectories are many enough, importing them works and constraint-based estimation returns, sequentially and in parallel, a network
with the edge from `p` to `n`: whether or not it is an edge of the network sampled. -/
theorem pooled_edges_kept (hcl : NoSuffixClash N.vars) (hT : "Time" ∉ N.vars) (hc : N.Conservative) {c : Nat} (hc2 : 2 ≤ c) (hcard : ∀ v ∈ N.vars, N.card v = c)
    {m : Nat} (hm : 1 ≤ m) {n p : Label} (hn : n ∈ N.vars) (hp : p ∈ N.vars) (hpn : p ≠ n)
    (hmoves : ∀ L ∈ N.vars.sublists, n ∉ L → ∀ f : Label → Nat, (∀ q ∈ N.vars, f q < c) → ∀ x < c, ∀ y < c, y ≠ x → 0 < meanMoves net N C m n L x y (L.map f))
    (hmat : ∀ K : List Label, (∀ q ∈ K, q ∈ N.vars) → p ∉ K → n ∉ K → PooledMatters net N C m n K p)
    (es₀ : List Edge) {Q : IndepParams} (hQ : QuantilesTighten Q c) (known : List Edge) :
    ∀ᵐ ω ∂manyLaw N.vars.length P, ∃ k₀, ∀ k, k₀ ≤ k → ∃ (sp : SamplePath) (s : Structure) (t : Trajectory),
      buildFromRaw ((pooledRows net C m k ω).map (SampleNet.frame N.vars)) ⟨List.range N.vars.length, N.vars, N.vars.map N.card⟩ es₀ = .ok sp ∧
      sp.struct = some s ∧ sp.trajectories = some t ∧
      ∀ M, buildRemovable s s.total known = .ok M → ∃ es', ((⟨s, s.total, t, independenceTest Q⟩ : CBEnv).ctpcSequential ⟨[], M⟩).1 = .ok es' ∧
        (∀ order : List Label, order.Perm N.vars → ((⟨s, s.total, t, independenceTest Q⟩ : CBEnv).ctpcParallel ⟨[], M⟩ order).1 = .ok es') ∧ (p, n) ∈ es' := by
  have hpos := leaves_of_conservative hD hOK hc
  have hc0 : 0 < c := by omega
  set s := builtStruct N.vars (N.vars.map N.card) es₀ with hs
  have hsl : ∀ L ∈ N.vars.sublists, ∀ q ∈ L, q ∈ N.vars := fun L hL q hq => (List.mem_sublists.1 hL).subset hq
  have hstay : ∀ L ∈ N.vars.sublists, n ∉ L → ∀ f : Label → Nat, (∀ q ∈ N.vars, f q < c) → ∀ x < c, 0 < meanStay net N C m n L x (L.map f) := by
    intro L hL hnL f hf x hx
    refine (meanStay_nonneg hD hOK C hc hn (hsl L hL) x _ m).lt_of_ne (fun h => ?_)
    obtain ⟨y, hy, hyx⟩ : ∃ y < c, y ≠ x := by
      by_cases h : x = 0
      · exact ⟨1, by omega, by omega⟩
      · exact ⟨0, by omega, by omega⟩
    have h1 := hmoves L hL hnL f hf x hx y hy hyx
    rw [meanMoves_zero hD hOK C hc hn (hsl L hL) h.symm hyx] at h1
    exact lt_irrefl _ h1
  obtain ⟨ε, hε, m₀, hkept⟩ := kept_if_close (s := s) hQ hp hn hpn (S := fun n L x u => meanStay net N C m n L x u) (μ := fun n L x y u => meanMoves net N C m n L x y u)
    (fun L hL hnL f hf x hx => hstay L hL hnL f (fun q _ => hf q) x hx)
    (fun L hL hnL f hf x hx y hy hyx => hmoves L hL hnL f (fun q _ => hf q) x hx y hy hyx)
    (fun K hK hpK hnK => by
      obtain ⟨f, hf, x, y, hx, hy, hyx, hne⟩ := pooledMatters_beyond C hpK (hmat K hK hpK hnK)
      rw [hcard n hn] at hx hy
      refine ⟨fun q => if q ∈ N.vars then f q else 0, fun q => ?_, x, y, hx, hy, hyx, ?_⟩
      · dsimp only
        split_ifs with hq
        · rw [← hcard q hq]; exact hf q hq
        · exact hc0
      · have hmem : ∀ K' : List Label, (∀ q ∈ K', q ∈ N.vars) → ∀ q, q ∈ ordered s K' ↔ q ∈ K' := fun K' hK' q => by
          unfold ordered
          rw [List.mem_filter, decide_eq_true_eq]
          exact ⟨fun h => h.2, fun h => ⟨hK' q h, h⟩⟩
        have hmap : ∀ K' : List Label, (∀ q ∈ K', q ∈ N.vars) → K'.map (fun q => if q ∈ N.vars then f q else 0) = K'.map f := fun K' hK' =>
          List.map_congr_left (fun q hq => if_pos (hK' q hq))
        have hpK' : ∀ q ∈ p :: K, q ∈ N.vars := by
          intro q hq
          rcases List.mem_cons.1 hq with rfl | hq
          · exact hp
          · exact hK q hq
        rw [meanStay_congr net N C m n (hmem K hK), meanStay_congr net N C m n (hmem _ hpK'), meanMoves_congr net N C m n (hmem K hK), meanMoves_congr net N C m n (hmem _ hpK'),
          hmap K hK, hmap _ hpK']
        exact hne)
  have hall : ∀ᵐ ω ∂manyLaw N.vars.length P, ∀ n ∈ N.vars.toFinset, ∀ L ∈ N.vars.sublists.toFinset, ∀ (x : Nat) (u : List Nat),
      (meanStay net N C m n L x u = 0 ∧ ∀ k, rawResidence N.vars (pooledRows net C m k ω) n L x u = 0 ∧ ∀ y, y ≠ x → rawTransitions N.vars (pooledRows net C m k ω) n L x y u = 0) ∨
      (0 < meanStay net N C m n L x u ∧ Tendsto (fun k : ℕ => (rawResidence N.vars (pooledRows net C m k ω) n L x u : ℝ) / k) atTop (𝓝 (meanStay net N C m n L x u)) ∧
        ∀ y, y ≠ x → Tendsto (fun k : ℕ => (rawTransitions N.vars (pooledRows net C m k ω) n L x y u : ℝ) / k) atTop (𝓝 (meanMoves net N C m n L x y u))) := by
    rw [Filter.eventually_all_finset]
    intro n hn
    rw [Filter.eventually_all_finset]
    intro L hL
    rw [ae_all_iff]
    intro x
    rw [ae_all_iff]
    intro u
    exact pooled_settles hD hOK C hc (List.mem_toFinset.1 hn) (hsl L (List.mem_toFinset.1 hL)) x u m
  filter_upwards [hall, many_ae (sampled_rows_usable hD hOK C hpos hm)] with ω hω huse
  have hclose : ∀ᶠ k : ℕ in atTop, ∀ n ∈ N.vars.toFinset, ∀ L ∈ N.vars.sublists.toFinset, ∀ u ∈ (assignments (L.map (fun _ => c))).toFinset, ∀ x ∈ Finset.range c,
      |(rawResidence N.vars (pooledRows net C m k ω) n L x u : ℝ) / k - meanStay net N C m n L x u| < ε ∧ ∀ y ∈ Finset.range c, y ≠ x →
        |(rawTransitions N.vars (pooledRows net C m k ω) n L x y u : ℝ) / k - meanMoves net N C m n L x y u| < ε := by
    rw [Filter.eventually_all_finset]
    intro n hn
    rw [Filter.eventually_all_finset]
    intro L hL
    rw [Filter.eventually_all_finset]
    intro u _
    rw [Filter.eventually_all_finset]
    intro x _
    have near : ∀ {f : ℕ → ℝ} {l : ℝ}, Tendsto f atTop (𝓝 l) → ∀ᶠ k in atTop, |f k - l| < ε := fun h => by
      have := (Metric.tendsto_nhds.1 h) ε hε
      simpa only [Real.dist_eq] using this
    rw [Filter.eventually_and, Filter.eventually_all_finset]
    rcases hω n hn L hL x u with ⟨h0, h1⟩ | ⟨-, h1, h2⟩
    · refine ⟨.of_forall (fun k => ?_), fun y _ => .of_forall (fun k hyx => ?_)⟩
      · rw [(h1 k).1, h0]; simpa using hε
      · rw [(h1 k).2 y hyx, meanMoves_zero hD hOK C hc (List.mem_toFinset.1 hn) (hsl L (List.mem_toFinset.1 hL)) h0 hyx]; simpa using hε
    · refine ⟨near h1, fun y _ => ?_⟩
      by_cases hyx : y = x
      · exact .of_forall (fun k h => absurd hyx h)
      · filter_upwards [near (h2 y hyx)] with k hk _ using hk
  obtain ⟨k₁, hk₁⟩ := eventually_atTop.1 (hclose.and ((tendsto_natCast_atTop_atTop (R := ℝ)).eventually_ge_atTop m₀))
  refine ⟨max k₁ 1, fun k hk => ?_⟩
  obtain ⟨hcl1, hsize⟩ := hk₁ k ((le_max_left _ _).trans hk)
  have hk1 : 1 ≤ k := (le_max_right _ _).trans hk
  have huseD : UsableData N (pooledRows net C m k ω) := ⟨by unfold pooledRows; simp; omega, fun r hr => by obtain ⟨i, -, rfl⟩ := List.mem_map.1 hr; exact huse i⟩
  obtain ⟨⟨sp, p1, p2, p3⟩, hdata, hstat⟩ := usable_builds hOK hcl hT hcard huseD es₀
  have hd : DataOK s (builtTraj N.vars (pooledRows net C m k ω)) := ⟨hdata.data.origCols, hdata.data.len, hdata.data.width, hdata.data.idx_lt, hdata.data.cur, hdata.data.nxt⟩
  have hw : WFStructure s := ⟨hdata.wf.1, hdata.wf.2, hdata.wf.3⟩
  have hrun : UniformRun ⟨s, s.total, builtTraj N.vars (pooledRows net C m k ω), independenceTest Q⟩ Q c :=
    ⟨rfl, hw, hd, hdata.cards, hc0, rfl, List.nodup_range⟩
  refine ⟨sp, s, _, p1, p2, p3, fun M hM => ?_⟩
  obtain ⟨es', e1, e2, -⟩ := constraint_based_returns_partial hrun.test hrun.wf hrun.indexes hrun.total hrun.data hc0 hrun.cards hM
  refine ⟨es', e1, e2, hkept k hsize _ hrun (fun n hn L hL u hu x hx => ?_) M es' e1⟩
  obtain ⟨g1, g2⟩ := hcl1 n (List.mem_toFinset.2 hn) L (List.mem_toFinset.2 hL) u (List.mem_toFinset.2 hu) x (Finset.mem_range.2 hx)
  rw [(hstat n hn L (hsl L hL) x u).1]
  refine ⟨g1, fun y hy hyx => ?_⟩
  rw [(hstat n hn L (hsl L hL) x u).2 y]
  exact g2 y (Finset.mem_range.2 hy) hyx

end

/-! ## Non-vacuity: two independent variables -/

namespace Demo

section
variable {U : Type} [MeasurableSpace U] {P : Measure U} [IsProbabilityMeasure P] (C : Categorical U P)

theorem lone_moves_pos {n : Label} (hn : n ∈ loneCtbn.vars) {m : Nat} (hm : 4 ≤ m) {L : List Label} (hL : L ∈ loneCtbn.vars.sublists) (hnL : n ∉ L) {f : Label → Nat}
    (hf : ∀ q ∈ loneCtbn.vars, f q < 2) {x : Nat} (hx : x < 2) {y : Nat} (hy : y < 2) (hyx : y ≠ x) : 0 < meanMoves loneNet loneCtbn C m n L x y (L.map f) := by
  have hpos := leaves_of_conservative lone_describes lone_ok lone_conservative
  have hU := usable_inverse lone_describes lone_ok hpos
  have hsub : ∀ q ∈ L, q ∈ loneCtbn.vars := fun q hq => (List.mem_sublists.1 hL).subset hq
  obtain ⟨k, rfl⟩ : ∃ k, m = k + 1 := ⟨m - 1, by omega⟩
  have h := (rows_transitions_mean lone_describes lone_ok C lone_conservative hn hsub (fun q hq => by simp [loneCtbn] at hq) (x := x) (y := y) hyx hy (L.map f) k).2
  rw [lone_inverseAt n _ hx hy hyx, one_mul] at h
  unfold meanMoves
  rw [h]
  obtain ⟨A, hA⟩ := tame_simple lone_ok hU (fun _ _ => 0) (caseInd loneCtbn n L x (L.map f))
  have h := (sampled_total_mean lone_describes lone_ok C hpos hA k).2
  rw [integral_congr_ae (.of_forall (fun ω => circumstanceTime_eq loneCtbn n L x (L.map f) _ _ 0))]
  refine lt_of_lt_of_eq ?_ h.symm
  have hX := hf "X" (by decide)
  have hY := hf "Y" (by decide)
  have e0 : loneCtbn.vars.map (fun _ => 0) = [0, 0] := rfl
  rw [e0]
  have ha : (if n = "X" then x else f "X") < 2 := by split_ifs <;> assumption
  have hb : (if n = "Y" then x else f "Y") < 2 := by split_ifs <;> assumption
  refine lt_of_lt_of_le ?_ (lone_time_ge _ ha hb ?_ k 0 (by norm_num) 0 (by norm_num))
  · refine loneTime_pos (by omega) ?_
    split_ifs <;> norm_num
  · intro a _ b _
    by_cases hab : a = (if n = "X" then x else f "X") ∧ b = (if n = "Y" then x else f "Y")
    · rw [if_pos hab]
      have : Circumstances loneCtbn n L x (L.map f) [a, b] := by
        rw [circumstances_iff]
        have hs : ∀ v ∈ loneCtbn.vars, loneCtbn.state [a, b] v = if n = v then x else f v := by
          intro v hv
          simp only [loneCtbn, List.mem_cons, List.not_mem_nil, or_false] at hv
          rcases hv with rfl | rfl
          · exact hab.1
          · exact hab.2
        refine ⟨by rw [hs n hn, if_pos rfl], fun q hq => ?_⟩
        rw [hs q (hsub q hq), if_neg]
        rintro rfl
        exact hnL hq
      unfold caseInd
      rw [if_pos this]
    · rw [if_neg hab]; exact (caseInd_unit _ _ _ _ _ _).1

/-- **C213** (more trajectories do not help).  For the two independent variables of C212 and every `max_tr = m ≥ 4`, almost surely, once the number of trajectories sampled independently is large
enough, importing them works and constraint-based estimation returns the two edges between `X` and `Y`. -/
theorem pooling_keeps_edges {m : Nat} (hm : 4 ≤ m) {Q : IndepParams} (hQ : QuantilesTighten Q 2) (known : List Edge) :
    Describes loneNet loneCtbn ∧ loneCtbn.edges = ∅ ∧
    ∀ᵐ ω ∂manyLaw loneCtbn.vars.length P, ∃ k₀, ∀ k, k₀ ≤ k → ∃ (sp : SamplePath) (s : Structure) (t : Trajectory),
      buildFromRaw ((pooledRows loneNet C m k ω).map (SampleNet.frame ["X", "Y"])) ⟨[0, 1], ["X", "Y"], [2, 2]⟩ [] = .ok sp ∧
      sp.struct = some s ∧ sp.trajectories = some t ∧
      ∀ M, buildRemovable s s.total known = .ok M → ∃ es', ((⟨s, s.total, t, independenceTest Q⟩ : CBEnv).ctpcSequential ⟨[], M⟩).1 = .ok es' ∧
        (∀ order : List Label, order.Perm ["X", "Y"] → ((⟨s, s.total, t, independenceTest Q⟩ : CBEnv).ctpcParallel ⟨[], M⟩ order).1 = .ok es') ∧ ("X", "Y") ∈ es' ∧ ("Y", "X") ∈ es' := by
  refine ⟨lone_describes, by decide, ?_⟩
  have hK : ∀ {v p : Label}, (v = "X" ∧ p = "Y") ∨ (v = "Y" ∧ p = "X") → ∀ K : List Label, (∀ q ∈ K, q ∈ loneCtbn.vars) → p ∉ K → v ∉ K → K = [] := by
    intro v p hvp K h hp hv
    refine List.eq_nil_iff_forall_not_mem.2 (fun q hq => ?_)
    have := h q hq
    simp only [loneCtbn, List.mem_cons, List.not_mem_nil, or_false] at this
    rcases hvp with ⟨rfl, rfl⟩ | ⟨rfl, rfl⟩ <;> rcases this with rfl | rfl <;> contradiction
  have found : ∀ {v p : Label}, (v = "X" ∧ p = "Y") ∨ (v = "Y" ∧ p = "X") → _ := fun {v p} hvp =>
    have hv : v ∈ loneCtbn.vars := by rcases hvp with ⟨rfl, -⟩ | ⟨rfl, -⟩ <;> decide
    pooled_edges_kept lone_describes lone_ok C (by unfold NoSuffixClash; decide) (by decide) lone_conservative (le_refl 2) (fun _ _ => rfl) (m := m) (by omega) (n := v) (p := p)
      hv (by rcases hvp with ⟨-, rfl⟩ | ⟨-, rfl⟩ <;> decide) (by rcases hvp with ⟨rfl, rfl⟩ | ⟨rfl, rfl⟩ <;> decide)
      (fun L hL hnL f hf x hx y hy hyx => lone_moves_pos C hv hm hL hnL hf hx hy hyx)
      (fun K h1 h2 h3 => lone_pooledMatters C hvp (by omega) (hK hvp K h1 h2 h3)) [] hQ known
  filter_upwards [found (Or.inl ⟨rfl, rfl⟩), found (Or.inr ⟨rfl, rfl⟩)] with ω h1 h2
  obtain ⟨k₁, h1⟩ := h1
  obtain ⟨k₂, h2⟩ := h2
  refine ⟨max k₁ k₂, fun k hk => ?_⟩
  obtain ⟨p, s, t, a1, a2, a3, a4⟩ := h1 k ((le_max_left _ _).trans hk)
  obtain ⟨p', s', t', b1, b2, b3, b4⟩ := h2 k ((le_max_right _ _).trans hk)
  rw [a1, Except.ok.injEq] at b1
  subst b1
  rw [a2, Option.some.injEq] at b2
  rw [a3, Option.some.injEq] at b3
  subst b2 b3
  refine ⟨p, s, t, a1, a2, a3, fun M hM => ?_⟩
  obtain ⟨es', c1, c2, c3⟩ := a4 M hM
  obtain ⟨es'', d1, -, d3⟩ := b4 M hM
  rw [c1, Except.ok.injEq] at d1
  subst d1
  exact ⟨es', c1, c2, d3, c3⟩

/-- C213: such quantiles exist. -/
example : QuantilesTighten tightParams 2 := tight_tightens 2

end

end Demo

end

end PyCTBN
