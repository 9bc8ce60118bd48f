import Verif.Spec.ScoreGrowth
import Verif.Lemmas.ScoreLimit
import Verif.Props.ScoreConsistency

/-!
# The score on growing data (C168, C169)
-/

namespace PyCTBN
open Spec SearchEnv Filter Topology

variable {s : Structure} {c : Nat} {ts : ℕ → Trajectory} {N : ℕ → ℝ}

/-- What is known of the limit of one cell. -/
structure CellLimit (N : ℕ → ℝ) (t : ℕ → ℚ) (m : ℕ → Nat → Nat) (T : Finset Nat) (S : ℝ) (μ : Nat → ℝ) : Prop where
  nonneg : 0 ≤ S
  never : S = 0 → ∀ k, t k = 0 ∧ ∀ y ∈ T, m k y = 0
  time : Tendsto (fun k => (t k : ℝ) / N k) atTop (𝓝 S)
  count : ∀ y ∈ T, Tendsto (fun k => (m k y : ℝ) / N k) atTop (𝓝 (μ y))

theorem CellLimit.unseen {t : ℕ → ℚ} {m : ℕ → Nat → Nat} {T : Finset Nat} {S : ℝ} {μ : Nat → ℝ} (h : CellLimit N t m T S μ)
    (hS : S = 0) : ∀ y ∈ T, μ y = 0 := by
  intro y hy
  have := h.count y hy
  have e : (fun k => (m k y : ℝ) / N k) = fun _ => 0 := funext (fun k => by simp [(h.never hS k).2 y hy])
  rw [e] at this
  exact (tendsto_nhds_unique this tendsto_const_nhds)

theorem count_of_rate {o : ℕ → Stats} {x y : Nat} {T : ℝ} (hT0 : 0 < T) {r : ℝ}
    (hT : Tendsto (fun k => ((o k).time x : ℝ) / N k) atTop (𝓝 T)) (hr : Tendsto (fun k => ((o k).count x y : ℝ) / ((o k).time x : ℝ)) atTop (𝓝 r)) :
    Tendsto (fun k => ((o k).count x y : ℝ) / N k) atTop (𝓝 (r * T)) := by
  refine (hr.mul hT).congr' ?_
  filter_upwards [hT.eventually (lt_mem_nhds hT0)] with k hk
  have : (((o k).time x : ℚ) : ℝ) ≠ 0 := by
    intro h0
    rw [h0, zero_div] at hk
    exact lt_irrefl _ hk
  field_simp

/-- The log marginal likelihood of a cell, per unit of data. -/
theorem CellLimit.log_over (hN : Tendsto N atTop atTop) {τ α w : ℝ} (hτ : 0 < τ) (hα : 0 < α) (hw : 0 < w) {t : ℕ → ℚ} {m : ℕ → Nat → Nat} {T : Finset Nat} {S : ℝ}
    {μ : Nat → ℝ} (h : CellLimit N t m T S μ) (ht : ∀ k, 0 ≤ t k) :
    Tendsto (fun k => Real.log (cellMarginal τ α w T (m k) (t k)) / N k) atTop (𝓝 (realFit T μ S)) := by
  rcases h.nonneg.eq_or_lt with hS | hS
  · have e1 : (fun k => Real.log (cellMarginal τ α w T (m k) (t k)) / N k) = fun _ => 0 := by
      funext k
      obtain ⟨ht0, hm0⟩ := h.never hS.symm k
      rw [ht0, Rat.cast_zero, cellMarginal_unseen hτ hα hw hm0, Real.log_one, zero_div]
    have e2 : realFit T μ S = 0 := Finset.sum_eq_zero (fun y hy => by simp [h.unseen hS.symm y hy])
    rw [e1, e2]
    exact tendsto_const_nhds
  · exact cell_over hN hτ hα hw T (fun k => by exact_mod_cast ht k) hS h.count h.time

/-- The limits of the parts give the limit of the whole. -/
theorem CellLimit.sum {Z T : Finset Nat} {t : Nat → ℕ → ℚ} {m : Nat → ℕ → Nat → Nat} {S : Nat → ℝ} {μ : Nat → Nat → ℝ}
    (h : ∀ z ∈ Z, CellLimit N (t z) (m z) T (S z) (μ z)) :
    CellLimit N (fun k => ∑ z ∈ Z, t z k) (fun k y => ∑ z ∈ Z, m z k y) T (∑ z ∈ Z, S z) (fun y => ∑ z ∈ Z, μ z y) where
  nonneg := Finset.sum_nonneg (fun z hz => (h z hz).nonneg)
  never h0 k := by
    have hz := fun z hz => (h z hz).never ((Finset.sum_eq_zero_iff_of_nonneg (fun z hz => (h z hz).nonneg)).1 h0 z hz) k
    exact ⟨Finset.sum_eq_zero (fun z hz' => (hz z hz').1), fun y hy => Finset.sum_eq_zero (fun z hz' => (hz z hz').2 y hy)⟩
  time := by
    refine (tendsto_finsetSum Z (fun z hz => (h z hz).time)).congr (fun k => ?_)
    push_cast
    rw [Finset.sum_div]
  count y hy := by
    refine (tendsto_finsetSum Z (fun z hz => (h z hz).count y hy)).congr (fun k => ?_)
    push_cast
    rw [Finset.sum_div]

/-- On growing data the likelihood with a parent that matters becomes greater. -/
theorem likelihood_growth_of (hU : ∀ k, UniformData s (ts k) c) (hc : 2 ≤ c) {τ α : ℝ} (hτ : 0 < τ) (hα : 0 < α)
    (hN : Tendsto N atTop atTop) {n : Label} {K : List Label} {p : Label} (hp : p ∈ s.labels) (hpK : p ∉ K)
    (hset : ∀ a : Label → Nat, (∀ q, a q < c) → ∀ x z, x < c → z < c →
      (∀ k, (givenWith s (ts k) n c K p a z).time x = 0 ∧ ∀ y, y ≠ x → (givenWith s (ts k) n c K p a z).count x y = 0) ∨
      ∃ T ρ, SettlesAt N (fun k => givenWith s (ts k) n c K p a z) c x T ρ)
    (hM : MattersInTheLongRun s N ts n c K p) :
    ∀ᶠ k in atTop, likelihood s (ts k) c τ α n K.toFinset < likelihood s (ts k) c τ α n (insert p K.toFinset) := by
  obtain ⟨L1, L2, h1, h2, hnd⟩ := ordered_cons (hU 0).wf.nodup hp hpK
  have hc' : (0 : ℝ) < (c : ℝ) - 1 := by
    have : (2 : ℝ) ≤ c := by exact_mod_cast hc
    linarith
  have hw : 0 < α / ((c : ℝ) - 1) := by positivity
  have hcp : s.getStatesNumber p = .ok c := by
    obtain ⟨w, hw', e⟩ := getStatesNumber_mem (hU 0).wf hp
    rw [e, (hU 0).cards w hw']
  have htime : ∀ k a z x, (givenWith s (ts k) n c K p a z).time x = residence s (ts k) n (L1 ++ p :: L2) x (L1.map a ++ z :: L2.map a) := by
    intro k a z x
    unfold givenWith given
    rw [h2, update_map hnd]
    rfl
  have hcount : ∀ k a z x y, y ≠ x → (givenWith s (ts k) n c K p a z).count x y = transitions s (ts k) n (L1 ++ p :: L2) x y (L1.map a ++ z :: L2.map a) := by
    intro k a z x y hne
    unfold givenWith given
    rw [h2, update_map hnd]
    exact if_neg hne.symm
  have hfun : ∀ u1 ∈ (assignments (L1.map (fun _ => c))).toFinset, ∀ u2 ∈ (assignments (L2.map (fun _ => c))).toFinset,
      ∃ a : Label → Nat, (∀ q, a q < c) ∧ L1.map a = u1 ∧ L2.map a = u2 := by
    intro u1 hu1 u2 hu2
    obtain ⟨k1, k2⟩ := assignments_lt (List.mem_toFinset.1 hu1)
    obtain ⟨k3, k4⟩ := assignments_lt (List.mem_toFinset.1 hu2)
    have hnd' : (L1 ++ L2).Nodup := by
      refine hnd.sublist ?_
      exact (List.Sublist.refl L1).append (List.sublist_cons_self p L2)
    obtain ⟨a, ha, hm⟩ := exists_assign hnd' (by omega) (u := u1 ++ u2) (by simp [k1, k3]) (fun v hv => (List.mem_append.1 hv).elim (k2 v) (k4 v))
    rw [List.map_append] at hm
    obtain ⟨m1, m2⟩ := List.append_inj hm (by simp [k1])
    exact ⟨a, ha, m1, m2⟩
  let R := fun k u1 u2 x (z : Nat) => residence s (ts k) n (L1 ++ p :: L2) x (u1 ++ z :: u2)
  let M := fun k u1 u2 x (z y : Nat) => transitions s (ts k) n (L1 ++ p :: L2) x y (u1 ++ z :: u2)
  have hR0 : ∀ k u1 u2 x z, 0 ≤ R k u1 u2 x z := fun k u1 u2 x z => residence_nonneg (hU k).times _ _ _
  have hlim : ∀ u1 u2 x z, ∃ (S : ℝ) (μ : Nat → ℝ), u1 ∈ (assignments (L1.map (fun _ => c))).toFinset → u2 ∈ (assignments (L2.map (fun _ => c))).toFinset →
      x < c → z < c → CellLimit N (fun k => R k u1 u2 x z) (fun k => M k u1 u2 x z) ((Finset.range c).erase x) S μ := by
    intro u1 u2 x z
    by_cases hin : u1 ∈ (assignments (L1.map (fun _ => c))).toFinset ∧ u2 ∈ (assignments (L2.map (fun _ => c))).toFinset ∧ x < c ∧ z < c
    · obtain ⟨hu1, hu2, hx, hz⟩ := hin
      obtain ⟨a, ha, rfl, rfl⟩ := hfun u1 hu1 u2 hu2
      rcases hset a ha x z hx hz with h | ⟨T, ρ, h⟩
      · have h' : ∀ k, R k (L1.map a) (L2.map a) x z = 0 := fun k => (htime k a z x).symm.trans (h k).1
        have h'' : ∀ k, ∀ y ∈ (Finset.range c).erase x, M k (L1.map a) (L2.map a) x z y = 0 := fun k y hy =>
          (hcount k a z x y (Finset.mem_erase.1 hy).1).symm.trans ((h k).2 y (Finset.mem_erase.1 hy).1)
        refine ⟨0, fun _ => 0, fun _ _ _ _ => ⟨le_rfl, fun _ k => ⟨h' k, h'' k⟩, ?_, fun y hy => ?_⟩⟩
        · simp only [h', Rat.cast_zero, zero_div]; exact tendsto_const_nhds
        · simp only [h'' _ y hy, Nat.cast_zero, zero_div]; exact tendsto_const_nhds
      · refine ⟨T, fun y => ρ y * T, fun _ _ _ _ => ⟨h.pos.le, fun h0 => absurd h0 h.pos.ne', ?_, fun y hy => ?_⟩⟩
        · have := h.share
          simp only [htime] at this
          exact this
        · obtain ⟨hyx, hy⟩ := Finset.mem_erase.1 hy
          have := count_of_rate (y := y) h.pos h.share (h.rate y (Finset.mem_range.1 hy) hyx)
          simp only [hcount _ _ _ _ _ hyx] at this
          exact this
    · exact ⟨0, fun _ => 0, fun a b d e => absurd ⟨a, b, d, e⟩ hin⟩
  choose S μ hCL using hlim
  let D := fun u1 u2 x => ∑ z ∈ Finset.range c, realFit ((Finset.range c).erase x) (μ u1 u2 x z) (S u1 u2 x z) -
    realFit ((Finset.range c).erase x) (fun y => ∑ z ∈ Finset.range c, μ u1 u2 x z y) (∑ z ∈ Finset.range c, S u1 u2 x z)
  have hcell : ∀ u1 ∈ (assignments (L1.map (fun _ => c))).toFinset, ∀ u2 ∈ (assignments (L2.map (fun _ => c))).toFinset, ∀ x ∈ Finset.range c,
      Tendsto (fun k => (∑ z ∈ Finset.range c, logCell s (ts k) c τ α n (L1 ++ p :: L2) x (u1 ++ z :: u2) - logCell s (ts k) c τ α n (L1 ++ L2) x (u1 ++ u2)) / N k)
        atTop (𝓝 (D u1 u2 x)) := by
    intro u1 hu1 u2 hu2 x hx
    have hl := (assignments_lt (List.mem_toFinset.1 hu1)).1
    have hz := fun z (hz : z ∈ Finset.range c) => hCL u1 u2 x z hu1 hu2 (Finset.mem_range.1 hx) (Finset.mem_range.1 hz)
    have hsplit := tendsto_finsetSum (Finset.range c) (fun z hz' => (hz z hz').log_over hN hτ hα hw (fun k => hR0 k u1 u2 x z))
    have hwhole := (CellLimit.sum hz).log_over hN hτ hα hw (fun k => Finset.sum_nonneg (fun z _ => hR0 k u1 u2 x z))
    refine (hsplit.sub hwhole).congr (fun k => ?_)
    rw [sub_div, Finset.sum_div]
    congr 2
    unfold logCell
    rw [residence_split (hU k).data hp hcp hl]
    congr 2
    funext y
    rw [transitions_split (hU k).data hp hcp hl]
  have hdiff := fun k => log_likelihood_diff (t := ts k) (s := s) (hU k).times hc hτ hα n h1 h2
  have hall : Tendsto (fun k => (Real.log (likelihood s (ts k) c τ α n (insert p K.toFinset)) - Real.log (likelihood s (ts k) c τ α n K.toFinset)) / N k) atTop
      (𝓝 (∑ u1 ∈ (assignments (L1.map (fun _ => c))).toFinset, ∑ u2 ∈ (assignments (L2.map (fun _ => c))).toFinset, ∑ x ∈ Finset.range c, D u1 u2 x)) := by
    refine (tendsto_finsetSum _ (fun u1 hu1 => tendsto_finsetSum _ (fun u2 hu2 => tendsto_finsetSum _ (fun x hx => hcell u1 hu1 u2 hu2 x hx)))).congr (fun k => ?_)
    rw [hdiff k]
    simp only [Finset.sum_div]
  have hgain := fun u1 hu1 u2 hu2 x (hx : x ∈ Finset.range c) =>
    have hz := fun z (hz : z ∈ Finset.range c) => hCL u1 u2 x z hu1 hu2 (Finset.mem_range.1 hx) (Finset.mem_range.1 hz)
    realFit_gain (Z := Finset.range c) (T := (Finset.range c).erase x) (m := μ u1 u2 x) (t := S u1 u2 x)
      (fun z hz' y hy => ge_of_tendsto ((hz z hz').count y hy) (by
        filter_upwards [hN.eventually_gt_atTop 0] with k hk
        positivity)) (fun z hz' => (hz z hz').nonneg)
      (fun z hz' h0 => (hz z hz').unseen h0)
  have hlimpos : 0 < ∑ u1 ∈ (assignments (L1.map (fun _ => c))).toFinset, ∑ u2 ∈ (assignments (L2.map (fun _ => c))).toFinset, ∑ x ∈ Finset.range c, D u1 u2 x := by
    obtain ⟨a, ha, x, y, z, z', hx, hy, hyx, hz, hz', T, T', ρ, ρ', g, g', hne⟩ := hM
    have m1 : L1.map a ∈ (assignments (L1.map (fun _ => c))).toFinset := List.mem_toFinset.2 (lt_assignments ha)
    have m2 : L2.map a ∈ (assignments (L2.map (fun _ => c))).toFinset := List.mem_toFinset.2 (lt_assignments ha)
    have hyT : y ∈ (Finset.range c).erase x := Finset.mem_erase.2 ⟨hyx, Finset.mem_range.2 hy⟩
    have huniq : ∀ z < c, ∀ T ρ, SettlesAt N (fun k => givenWith s (ts k) n c K p a z) c x T ρ →
        0 < S (L1.map a) (L2.map a) x z ∧ μ (L1.map a) (L2.map a) x z y / S (L1.map a) (L2.map a) x z = ρ y := by
      intro z hz T ρ h
      have hcl := hCL _ _ x z m1 m2 hx hz
      have e1 : S (L1.map a) (L2.map a) x z = T := by
        refine tendsto_nhds_unique hcl.time ?_
        have := h.share
        simp only [htime] at this
        exact this
      have e2 : μ (L1.map a) (L2.map a) x z y = ρ y * T := by
        refine tendsto_nhds_unique (hcl.count y hyT) ?_
        have := count_of_rate (y := y) h.pos h.share (h.rate y hy hyx)
        simp only [hcount _ _ _ _ _ hyx] at this
        exact this
      rw [e1, e2]
      exact ⟨h.pos, by field_simp [h.pos.ne']⟩
    obtain ⟨p1, q1⟩ := huniq z hz T ρ g
    obtain ⟨p2, q2⟩ := huniq z' hz' T' ρ' g'
    refine Finset.sum_pos' (fun u1 hu1 => Finset.sum_nonneg (fun u2 hu2 => Finset.sum_nonneg (fun x hx => (hgain u1 hu1 u2 hu2 x hx).1))) ⟨_, m1, ?_⟩
    refine Finset.sum_pos' (fun u2 hu2 => Finset.sum_nonneg (fun x hx => (hgain _ m1 u2 hu2 x hx).1)) ⟨_, m2, ?_⟩
    refine Finset.sum_pos' (fun x hx => (hgain _ m1 _ m2 x hx).1) ⟨x, Finset.mem_range.2 hx, ?_⟩
    exact (hgain _ m1 _ m2 x (Finset.mem_range.2 hx)).2 y hyT z (Finset.mem_range.2 hz) z' (Finset.mem_range.2 hz') p1 p2 (by rw [q1, q2]; exact hne)
  filter_upwards [hall.eventually (lt_mem_nhds hlimpos), hN.eventually_gt_atTop 0] with k hk hNk
  have hL := (log_likelihood (s := s) (t := ts k) (hU k).times hc hτ hα n K).1
  have hL' := (log_likelihood (s := s) (t := ts k) (hU k).times hc hτ hα n (p :: K)).1
  rw [List.toFinset_cons] at hL'
  have := (div_pos_iff_of_pos_right hNk).1 hk
  rw [sub_pos] at this
  exact (Real.log_lt_log_iff hL hL').1 this

/-- The same for positive durations, where nothing happens in no time. -/
theorem likelihood_growth (hU : ∀ k, UniformData s (ts k) c) (hpos : ∀ k, ∀ d ∈ (ts k).times, 0 < d) (hc : 2 ≤ c) {τ α : ℝ} (hτ : 0 < τ) (hα : 0 < α)
    (hN : Tendsto N atTop atTop) {n : Label} {K : List Label} {p : Label} (hp : p ∈ s.labels) (hpK : p ∉ K) (hset : BehaviourSettles s N ts n c K p)
    (hM : MattersInTheLongRun s N ts n c K p) :
    ∀ᶠ k in atTop, likelihood s (ts k) c τ α n K.toFinset < likelihood s (ts k) c τ α n (insert p K.toFinset) := by
  refine likelihood_growth_of hU hc hτ hα hN hp hpK (fun a ha x z hx hz => ?_) hM
  rcases hset a ha x z hx hz with h | h
  · refine .inl (fun k => ⟨h k, fun y hy => ?_⟩)
    have h0 := h k
    unfold givenWith given observed at h0 ⊢
    dsimp only at h0 ⊢
    rw [if_neg hy.symm]
    exact transitions_zero (hU k).data (hpos k) h0 y
  · exact .inr h

/-! ## C168 -/

/-- **C168** One more parent and growing data.  All variables have `c ≥ 2` states, all durations are positive, the hyperparameters are positive.  The data sets `ts k`
grow to a size `N k` without bound, and the behaviour of `n` given the variables `K` and `p` settles.  If in the long run `p` matters to `n` beyond `K`, then from some
point on the score of `K` and `p` is greater than that of `K`. -/
theorem score_eventually_rewards (hU : ∀ k, UniformData s (ts k) c) (he : s.edges = []) (hpos : ∀ k, ∀ d ∈ (ts k).times, 0 < d) (hc : 2 ≤ c) {τ α : ℝ} (hτ : 0 < τ)
    (hα : 0 < α) (hN : Tendsto N atTop atTop) {n : Label} (hn : n ∈ s.labels) {K : List Label} (hK : ∀ q ∈ K, q ∈ s.labels) {p : Label} (hp : p ∈ s.labels)
    (hpK : p ∉ K) (hset : BehaviourSettles s N ts n c K p) (hM : MattersInTheLongRun s N ts n c K p) :
    ∃ k₀, ∀ k, k₀ ≤ k → ∃ v w, scoreOfParents s (ts k) τ α n K.toFinset = .ok v ∧ scoreOfParents s (ts k) τ α n (insert p K.toFinset) = .ok w ∧ v < w := by
  obtain ⟨k₀, hk₀⟩ := eventually_atTop.1 (likelihood_growth hU hpos hc hτ hα hN hp hpK hset hM)
  refine ⟨k₀, fun k hk => ?_⟩
  obtain ⟨v, v1, v2⟩ := score_of_parents_exact (hU k) he hc hτ hα hn (P := K.toFinset) (fun q hq => hK q (List.mem_toFinset.1 hq))
  obtain ⟨w, w1, w2⟩ := score_of_parents_exact (hU k) he hc hτ hα hn (P := insert p K.toFinset) (fun q hq => by
    rcases Finset.mem_insert.1 hq with rfl | hq
    · exact hp
    · exact hK q (List.mem_toFinset.1 hq))
  refine ⟨v, w, v1, w1, Real.exp_lt_exp.1 ?_⟩
  rw [v2, w2]
  exact hk₀ k hk

/-! ## C169 -/

/-- From some point on, adding the edge from `p` to `n` makes any network without it more likely. -/
theorem likelihood_eventually_prefers {τ α : ℝ} {n p : Label}
    (hgrow : ∀ K : List Label, (∀ q ∈ K, q ∈ s.labels) → p ∉ K → n ∉ K →
      ∀ᶠ k in atTop, likelihood s.cleanEdges (ts k) c τ α n K.toFinset < likelihood s.cleanEdges (ts k) c τ α n (insert p K.toFinset)) :
    ∃ k₀, ∀ k, k₀ ≤ k → ∀ es : Finset Edge, (∀ q, (q, n) ∈ es → q ∈ s.labels ∧ q ≠ n) → (p, n) ∉ es →
      likelihood s.cleanEdges (ts k) c τ α n ((es.filter (fun x => x.2 = n)).image Prod.fst) <
        likelihood s.cleanEdges (ts k) c τ α n (insert p ((es.filter (fun x => x.2 = n)).image Prod.fst)) := by
  have key : ∀ᶠ k in atTop, ∀ L ∈ s.labels.sublists.toFinset, p ∉ L → n ∉ L →
      likelihood s.cleanEdges (ts k) c τ α n L.toFinset < likelihood s.cleanEdges (ts k) c τ α n (insert p L.toFinset) := by
    rw [Filter.eventually_all_finset]
    intro L hL
    by_cases hpL : p ∈ L
    · exact Eventually.of_forall (fun _ h => absurd hpL h)
    by_cases hnL : n ∈ L
    · exact Eventually.of_forall (fun _ _ h => absurd hnL h)
    filter_upwards [hgrow L (fun q hq => (List.mem_sublists.1 (List.mem_toFinset.1 hL)).subset hq) hpL hnL] with k hk _ _
    exact hk
  obtain ⟨k₀, hk₀⟩ := eventually_atTop.1 key
  refine ⟨k₀, fun k hk es hlab hout => ?_⟩
  have hPiff : ∀ q, q ∈ (es.filter (fun x => x.2 = n)).image Prod.fst ↔ (q, n) ∈ es := by
    intro q
    simp only [Finset.mem_image, Finset.mem_filter]
    constructor
    · rintro ⟨⟨x, y⟩, ⟨h1, h2⟩, h3⟩
      simp only at h2 h3
      rw [← h2, ← h3]; exact h1
    · intro hx; exact ⟨_, ⟨hx, rfl⟩, rfl⟩
  let L := s.labels.filter (fun q => decide ((q, n) ∈ es))
  have hmem : ∀ q, q ∈ L ↔ (q, n) ∈ es := by
    intro q
    rw [List.mem_filter, decide_eq_true_eq]
    exact ⟨fun h => h.2, fun h => ⟨(hlab q h).1, h⟩⟩
  have hfs : (es.filter (fun x => x.2 = n)).image Prod.fst = L.toFinset := by
    ext q
    rw [hPiff, List.mem_toFinset, hmem]
  rw [hfs]
  exact hk₀ k hk L (List.mem_toFinset.2 (List.mem_sublists.2 List.filter_sublist)) (fun h => hout ((hmem p).1 h)) (fun h => (hlab n ((hmem n).1 h)).2 rfl)

/-- A parent whose addition makes any network more likely from some point on is found from some point on. -/
theorem score_growth_found (hU : ∀ k, UniformData s.cleanEdges (ts k) c) (hc : 2 ≤ c) {τ α : ℝ} (hτ : 0 < τ)
    (hα : 0 < α) {R : List (List Bool)} {known : List Edge} (hK : KnownEdges (sbEnv s.cleanEdges (ts 0) τ α R) known) {a : SBArgs}
    (hopt : a.optimizer = "tabu") (hmp : a.maxParents = none) (htl : ∀ k, a.tabuLength = some k → (s.labels.length : ℤ) - 1 ≤ k)
    (htd : ∀ k, a.tabuDuration = some k → (s.labels.length : ℤ) - 1 ≤ |k|) (hpat : ∀ m, a.patience = some m → (s.labels.length : ℤ) - 1 ≤ m + 1)
    (hit : (s.labels.length - 1) * 2 ^ (s.labels.length - 1) ≤ a.iterations) {n p : Label} (hn : n ∈ s.labels) (hp : p ∈ s.labels) (hpn : p ≠ n) (hkn : (p, n) ∉ known)
    (hgrow : ∀ K : List Label, (∀ q ∈ K, q ∈ s.labels) → p ∉ K → n ∉ K →
      ∀ᶠ k in atTop, likelihood s.cleanEdges (ts k) c τ α n K.toFinset < likelihood s.cleanEdges (ts k) c τ α n (insert p K.toFinset)) :
    ∃ k₀, ∀ k, k₀ ≤ k → ∀ (complete : DiGraph) (order : Option (List Label)) (pick drop : Label → Nat → Nat) (es : Finset Edge) (rep : Option (ℚ × ℚ))
      (e' : Estimator), (∀ o, order = some o → o.Perm s.labels) →
      estimateStructure (famScoreOn (ts k) τ α) R ⟨s, complete⟩ a order pick drop = (.ok (es, rep), e') → (p, n) ∈ es := by
  obtain ⟨k₀, hk₀⟩ := likelihood_eventually_prefers hgrow
  have hK : ∀ k, KnownEdges (sbEnv s.cleanEdges (ts k) τ α R) known := fun _ => known_data hK
  refine ⟨k₀, fun k hk complete order pick drop es rep e' ho h => ?_⟩
  by_contra hout
  have hopt' := (tabu_estimate_local_optimum (hU k) hc hτ hα (hK k) hopt hmp htl htd hpat hit ho h hn hp hpn hkn).2 hout
  have hlab : ∀ q, (q, n) ∈ es → q ∈ s.labels ∧ q ≠ n := by
    intro q hq
    have hws : WFStructure s := ⟨(hU 0).wf.nodup, (hU 0).wf.idxLen, (hU 0).wf.valLen⟩
    have := (estimate_well_formed (e := ⟨s, complete⟩) hws (hK k) ho h).1 _ hq
    exact ⟨this.1, this.2.2⟩
  exact absurd (hk₀ k hk es hlab hout) (not_lt.2 hopt')

/-- **C169** Enough data reveal every true parent to score-based estimation.  As C168, with score-based estimation by tabu search under the conditions of C130.  If,
whatever other parents are taken into account, the behaviour of `n` settles and `p` matters in the long run, then from some point on every network returned has the
edge from `p` to `n`, whatever is drawn and in whatever order the variables are processed. -/
theorem score_true_parents_eventually_found (hU : ∀ k, UniformData s.cleanEdges (ts k) c) (hpos : ∀ k, ∀ d ∈ (ts k).times, 0 < d) (hc : 2 ≤ c) {τ α : ℝ} (hτ : 0 < τ)
    (hα : 0 < α) (hN : Tendsto N atTop atTop) {R : List (List Bool)} {known : List Edge} (hK : KnownEdges (sbEnv s.cleanEdges (ts 0) τ α R) known) {a : SBArgs}
    (hopt : a.optimizer = "tabu") (hmp : a.maxParents = none) (htl : ∀ k, a.tabuLength = some k → (s.labels.length : ℤ) - 1 ≤ k)
    (htd : ∀ k, a.tabuDuration = some k → (s.labels.length : ℤ) - 1 ≤ |k|) (hpat : ∀ m, a.patience = some m → (s.labels.length : ℤ) - 1 ≤ m + 1)
    (hit : (s.labels.length - 1) * 2 ^ (s.labels.length - 1) ≤ a.iterations) {n p : Label} (hn : n ∈ s.labels) (hp : p ∈ s.labels) (hpn : p ≠ n) (hkn : (p, n) ∉ known)
    (hdep : ∀ K : List Label, (∀ q ∈ K, q ∈ s.labels) → p ∉ K → n ∉ K → BehaviourSettles s N ts n c K p ∧ MattersInTheLongRun s N ts n c K p) :
    ∃ k₀, ∀ k, k₀ ≤ k → ∀ (complete : DiGraph) (order : Option (List Label)) (pick drop : Label → Nat → Nat) (es : Finset Edge) (rep : Option (ℚ × ℚ))
      (e' : Estimator), (∀ o, order = some o → o.Perm s.labels) →
      estimateStructure (famScoreOn (ts k) τ α) R ⟨s, complete⟩ a order pick drop = (.ok (es, rep), e') → (p, n) ∈ es :=
  score_growth_found hU hc hτ hα hK hopt hmp htl htd hpat hit hn hp hpn hkn (fun K h1 h2 h3 =>
    likelihood_growth hU hpos hc hτ hα hN hp h2 (hdep K h1 h2 h3).1 (hdep K h1 h2 h3).2)

/-! ## Cases -/

/-- Observing the same data again and again is a case of growing data. -/
theorem repeated_settlesAt {t : Trajectory} (hl : t.times.length = t.rows.length) (n : Label) (K : List Label) (p : Label) (a : Label → Nat) {x : Nat} (z : Nat)
    (h : 0 < (givenWith s t n c K p a z).time x) :
    SettlesAt (fun k => (k : ℝ)) (fun k => givenWith s (repeated t k) n c K p a z) c x ((givenWith s t n c K p a z).time x : ℚ)
      (fun y => ((givenWith s t n c K p a z).count x y : ℝ) / ((givenWith s t n c K p a z).time x : ℚ)) := by
  have hT : (0 : ℝ) < ((givenWith s t n c K p a z).time x : ℚ) := by exact_mod_cast h
  refine ⟨hT, ?_, fun y _ _ => ?_⟩
  · refine tendsto_const_nhds.congr' ?_
    filter_upwards [eventually_gt_atTop 0] with k hk
    have : (0 : ℝ) < k := by exact_mod_cast hk
    unfold givenWith
    rw [(given_repeated s t hl k n c _ _).2]
    push_cast
    field_simp
  · refine tendsto_const_nhds.congr' ?_
    filter_upwards [eventually_gt_atTop 0] with k hk
    have : (0 : ℝ) < k := by exact_mod_cast hk
    unfold givenWith at hT ⊢
    rw [(given_repeated s t hl k n c _ _).2, (given_repeated s t hl k n c _ _).1]
    push_cast
    field_simp

theorem repeated_behaves {t : Trajectory} (hU : UniformData s t c) (n : Label) (K : List Label) (p : Label) :
    BehaviourSettles s (fun k => (k : ℝ)) (repeated t) n c K p ∧ (Matters s t n c K p → MattersInTheLongRun s (fun k => (k : ℝ)) (repeated t) n c K p) := by
  constructor
  · intro a _ x z _ _
    have h0 : 0 ≤ (givenWith s t n c K p a z).time x := residence_nonneg hU.times _ _ _
    rcases h0.eq_or_lt with h | h
    · left
      intro k
      unfold givenWith at h ⊢
      rw [(given_repeated s t hU.data.len k n c _ _).2, ← h, mul_zero]
    · exact .inr ⟨_, _, repeated_settlesAt hU.data.len n K p a z h⟩
  · rintro ⟨a, ha, x, y, z, z', hx, hy, hyx, hz, hz', h1, h2, hne⟩
    refine ⟨a, ha, x, y, z, z', hx, hy, hyx, hz, hz', _, _, _, _, repeated_settlesAt hU.data.len n K p a z h1, repeated_settlesAt hU.data.len n K p a z' h2, ?_⟩
    intro e
    apply hne
    exact_mod_cast e

namespace Demo

/-- The growing data sets that consist of more and more copies of `exT2`. -/
example : ∃ k₀, ∀ k, k₀ ≤ k → ∃ v w, scoreOfParents exS2.cleanEdges (repeated exT2 k) 1 1 "X" ∅ = .ok v ∧
    scoreOfParents exS2.cleanEdges (repeated exT2 k) 1 1 "X" {"Y"} = .ok w ∧ v < w :=
  score_eventually_rewards (s := exS2.cleanEdges) (ts := repeated exT2) (uniform_repeated exU) rfl
    (fun k d hd => by
      obtain ⟨l, hl, hd⟩ := List.mem_flatten.1 hd
      rw [(List.mem_replicate.1 hl).2] at hd
      exact (show ∀ d ∈ exT2.times, 0 < d by decide +kernel) d hd) (le_refl 2) one_pos one_pos tendsto_natCast_atTop_atTop (by decide) (K := []) (by simp)
    (by decide) (by simp) (repeated_behaves exU "X" [] "Y").1 ((repeated_behaves exU "X" [] "Y").2 exT2_matters)

example : ∃ k₀, ∀ k, k₀ ≤ k → ∀ pick drop, ∃ es rep e',
    estimateStructure (famScoreOn (repeated exT2 k) 1 1) [[true, true], [true, true]] (Estimator.new exS2) defaultArgs none pick drop = (.ok (es, rep), e') ∧
    ("Y", "X") ∈ es := by
  obtain ⟨k₀, hk₀⟩ := score_true_parents_eventually_found (s := exS2) (ts := repeated exT2) (a := defaultArgs) (R := [[true, true], [true, true]]) (known := [])
    (n := "X") (p := "Y") (N := fun k => (k : ℝ)) (uniform_repeated exU)
    (fun k d hd => by
      obtain ⟨l, hl, hd⟩ := List.mem_flatten.1 hd
      rw [(List.mem_replicate.1 hl).2] at hd
      exact (show ∀ d ∈ exT2.times, 0 < d by decide +kernel) d hd) (le_refl 2) one_pos one_pos tendsto_natCast_atTop_atTop (known_data exU_known) rfl rfl
    (by simp [defaultArgs]) (by simp [defaultArgs]) (by simp [defaultArgs]) (by decide) (by decide) (by decide) (by decide) (by simp)
    (fun K hK h1 h2 => by
      have : K = [] := by
        cases K with
        | nil => rfl
        | cons q K =>
          have hq : q = "X" ∨ q = "Y" := by simpa [exS2] using hK q (by simp)
          rcases hq with rfl | rfl <;> simp at h1 h2
      subst this
      exact ⟨(repeated_behaves exU "X" [] "Y").1, (repeated_behaves exU "X" [] "Y").2 exT2_matters⟩)
  refine ⟨k₀, fun k hk pick drop => ?_⟩
  obtain ⟨es, rep, e', h, -⟩ := score_based_returns_partial (a := defaultArgs) (order := none) (uniform_repeated exU k) (le_refl 2) one_pos one_pos
    (known_data exU_known)
    ⟨by simp [defaultArgs], by simp [defaultArgs], by simp [defaultArgs]⟩
    (by
      intro n hn
      have : n = "X" ∨ n = "Y" := by simpa [exS2] using hn
      rcases this with rfl | rfl
      · exact ⟨"Y", by simp [candidates, sbEnv, exS2, Structure.cleanEdges, parentsIn]⟩
      · exact ⟨"X", by simp [candidates, sbEnv, exS2, Structure.cleanEdges, parentsIn]⟩) (Estimator.new exS2).complete (by simp) pick drop
  exact ⟨es, rep, e', h, hk₀ k hk _ none pick drop es rep e' (by simp) h⟩

end Demo
end PyCTBN
