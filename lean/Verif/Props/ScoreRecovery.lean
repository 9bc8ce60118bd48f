import Verif.Props.ScoreGrowth
import Verif.Props.HillEstimate
import Verif.Lemmas.ScorePenalty

/-!
# The score and superfluous parents on growing data; exact recovery (C193, C194)
-/

namespace PyCTBN
open Spec SearchEnv Filter Topology

variable {s : Structure} {c : Nat} {ts : ℕ → Trajectory} {N : ℕ → ℝ}

/-- On growing data the likelihood with a superfluous parent becomes smaller. -/
theorem likelihood_penalty (hU : ∀ k, UniformData s (ts k) c) (hc : 2 ≤ c) {τ α : ℝ} (hτ : 0 < τ) (hα : 0 < α)
    (hN : Tendsto N atTop atTop) {n : Label} {K : List Label} {p : Label} (hp : p ∈ s.labels) (hpK : p ∉ K) (hS : SuperfluousInTheLongRun s N ts n c K p) :
    ∀ᶠ k in atTop, likelihood s (ts k) c τ α n (insert p K.toFinset) < likelihood s (ts k) c τ α n K.toFinset := by
  obtain ⟨L1, L2, h1, h2, hnd⟩ := ordered_cons (hU 0).wf.nodup hp hpK
  have hc' : (0 : ℝ) < (c : ℝ) - 1 := by
    have : (2 : ℝ) ≤ c := by exact_mod_cast hc
    linarith
  have hw : 0 < α / ((c : ℝ) - 1) := by positivity
  have hcp : s.getStatesNumber p = .ok c := by
    obtain ⟨w, hw', e⟩ := getStatesNumber_mem (hU 0).wf hp
    rw [e, (hU 0).cards w hw']
  have htime : ∀ k a z x, (givenWith s (ts k) n c K p a z).time x = residence s (ts k) n (L1 ++ p :: L2) x (L1.map a ++ z :: L2.map a) := by
    intro k a z x
    unfold givenWith given
    rw [h2, update_map hnd]
    rfl
  have hcount : ∀ k a z x y, y ≠ x → (givenWith s (ts k) n c K p a z).count x y = transitions s (ts k) n (L1 ++ p :: L2) x y (L1.map a ++ z :: L2.map a) := by
    intro k a z x y hne
    unfold givenWith given
    rw [h2, update_map hnd]
    exact if_neg hne.symm
  have hfun : ∀ u1 ∈ (assignments (L1.map (fun _ => c))).toFinset, ∀ u2 ∈ (assignments (L2.map (fun _ => c))).toFinset,
      ∃ a : Label → Nat, (∀ q, a q < c) ∧ L1.map a = u1 ∧ L2.map a = u2 := by
    intro u1 hu1 u2 hu2
    obtain ⟨k1, k2⟩ := assignments_lt (List.mem_toFinset.1 hu1)
    obtain ⟨k3, k4⟩ := assignments_lt (List.mem_toFinset.1 hu2)
    have hnd' : (L1 ++ L2).Nodup := by
      refine hnd.sublist ?_
      exact (List.Sublist.refl L1).append (List.sublist_cons_self p L2)
    obtain ⟨a, ha, hm⟩ := exists_assign hnd' (by omega) (u := u1 ++ u2) (by simp [k1, k3]) (fun v hv => (List.mem_append.1 hv).elim (k2 v) (k4 v))
    rw [List.map_append] at hm
    obtain ⟨m1, m2⟩ := List.append_inj hm (by simp [k1])
    exact ⟨a, ha, m1, m2⟩
  have hcell : ∀ u1 ∈ (assignments (L1.map (fun _ => c))).toFinset, ∀ u2 ∈ (assignments (L2.map (fun _ => c))).toFinset, ∀ x ∈ Finset.range c,
      ∀ᶠ k in atTop, ∑ z ∈ Finset.range c, logCell s (ts k) c τ α n (L1 ++ p :: L2) x (u1 ++ z :: u2) < logCell s (ts k) c τ α n (L1 ++ L2) x (u1 ++ u2) := by
    intro u1 hu1 u2 hu2 x hx
    have hl := (assignments_lt (List.mem_toFinset.1 hu1)).1
    obtain ⟨a, ha, rfl, rfl⟩ := hfun u1 hu1 u2 hu2
    obtain ⟨ρ, hρ⟩ := hS a ha x (Finset.mem_range.1 hx)
    choose! T hT using hρ
    have hcard : ((Finset.range c).erase x).card = c - 1 := by rw [Finset.card_erase_of_mem hx, Finset.card_range]
    have key := split_costs (Z := Finset.range c) (T := (Finset.range c).erase x) (N := N) hN hτ hα hw (by rw [Finset.card_range]; exact hc)
      (by
        rw [hcard, Nat.cast_sub (by omega), Nat.cast_one]
        field_simp)
      (m := fun z k y => transitions s (ts k) n (L1 ++ p :: L2) x y (L1.map a ++ z :: L2.map a))
      (t := fun z k => residence s (ts k) n (L1 ++ p :: L2) x (L1.map a ++ z :: L2.map a)) (fun z _ k => residence_nonneg (hU k).times _ _ _)
      (ρ := ρ) (S := T) (fun z hz => (hT z (Finset.mem_range.1 hz)).pos)
      (fun y hy => ((hT 0 (by omega)).rate y (Finset.mem_range.1 (Finset.mem_erase.1 hy).2) (Finset.mem_erase.1 hy).1).1)
      (fun z hz => by
        have := (hT z (Finset.mem_range.1 hz)).share
        simp only [htime] at this
        exact this)
      (fun z hz y hy => by
        have := ((hT z (Finset.mem_range.1 hz)).rate y (Finset.mem_range.1 (Finset.mem_erase.1 hy).2) (Finset.mem_erase.1 hy).1).2
        simp only [htime, hcount _ _ _ _ _ (Finset.mem_erase.1 hy).1] at this
        exact this)
    filter_upwards [key] with k hk
    refine lt_of_lt_of_eq hk ?_
    unfold logCell
    rw [residence_split (hU k).data hp hcp hl]
    congr 2
    funext y
    rw [transitions_split (hU k).data hp hcp hl]
  have hall : ∀ᶠ k in atTop, ∀ u1 ∈ (assignments (L1.map (fun _ => c))).toFinset, ∀ u2 ∈ (assignments (L2.map (fun _ => c))).toFinset, ∀ x ∈ Finset.range c,
      ∑ z ∈ Finset.range c, logCell s (ts k) c τ α n (L1 ++ p :: L2) x (u1 ++ z :: u2) < logCell s (ts k) c τ α n (L1 ++ L2) x (u1 ++ u2) := by
    simp only [Filter.eventually_all_finset]
    exact hcell
  filter_upwards [hall] with k hk
  have hL := (log_likelihood (s := s) (t := ts k) (hU k).times hc hτ hα n K).1
  have hL' := (log_likelihood (s := s) (t := ts k) (hU k).times hc hτ hα n (p :: K)).1
  rw [List.toFinset_cons] at hL'
  rw [← Real.log_lt_log_iff hL' hL, ← sub_neg, log_likelihood_diff (t := ts k) (s := s) (hU k).times hc hτ hα n h1 h2]
  have m1 : L1.map (fun _ => 0) ∈ (assignments (L1.map (fun _ => c))).toFinset := List.mem_toFinset.2 (lt_assignments (fun _ => by omega))
  have m2 : L2.map (fun _ => 0) ∈ (assignments (L2.map (fun _ => c))).toFinset := List.mem_toFinset.2 (lt_assignments (fun _ => by omega))
  refine Finset.sum_neg (fun u1 hu1 => Finset.sum_neg (fun u2 hu2 => Finset.sum_neg (fun x hx => sub_neg.2 (hk u1 hu1 u2 hu2 x hx)) ⟨0, ?_⟩) ⟨_, m2⟩) ⟨_, m1⟩
  exact Finset.mem_range.2 (by omega)

/-! ## C193 -/

/-- **C193** One superfluous parent and growing data.  All variables have `c ≥ 2` states, the hyperparameters are positive.  The data sets `ts k` grow to a size `N k`
without bound.  If in the long run `p` is superfluous to `n` given `K`, then from some point on the score of `K` and `p` is less than that of `K`. -/
theorem score_eventually_penalizes (hU : ∀ k, UniformData s (ts k) c) (he : s.edges = []) (hc : 2 ≤ c) {τ α : ℝ} (hτ : 0 < τ)
    (hα : 0 < α) (hN : Tendsto N atTop atTop) {n : Label} (hn : n ∈ s.labels) {K : List Label} (hK : ∀ q ∈ K, q ∈ s.labels) {p : Label} (hp : p ∈ s.labels)
    (hpK : p ∉ K) (hS : SuperfluousInTheLongRun s N ts n c K p) :
    ∃ k₀, ∀ k, k₀ ≤ k → ∃ v w, scoreOfParents s (ts k) τ α n K.toFinset = .ok v ∧ scoreOfParents s (ts k) τ α n (insert p K.toFinset) = .ok w ∧ w < v := by
  obtain ⟨k₀, hk₀⟩ := eventually_atTop.1 (likelihood_penalty hU hc hτ hα hN hp hpK hS)
  refine ⟨k₀, fun k hk => ?_⟩
  obtain ⟨v, v1, v2⟩ := score_of_parents_exact (hU k) he hc hτ hα hn (P := K.toFinset) (fun q hq => hK q (List.mem_toFinset.1 hq))
  obtain ⟨w, w1, w2⟩ := score_of_parents_exact (hU k) he hc hτ hα hn (P := insert p K.toFinset) (fun q hq => by
    rcases Finset.mem_insert.1 hq with rfl | hq
    · exact hp
    · exact hK q (List.mem_toFinset.1 hq))
  refine ⟨v, w, v1, w1, Real.exp_lt_exp.1 ?_⟩
  rw [v2, w2]
  exact hk₀ k hk

/-! ## C194 -/

theorem eventually_sublists {P : ℕ → List Label → Prop} (l : List Label) (h : ∀ L : List Label, (∀ q ∈ L, q ∈ l) → ∀ᶠ k in atTop, P k L) :
    ∀ᶠ k in atTop, ∀ L ∈ l.sublists.toFinset, P k L := by
  rw [Filter.eventually_all_finset]
  exact fun L hL => h L (fun q hq => (List.mem_sublists.1 (List.mem_toFinset.1 hL)).subset hq)

/-- A local optimum of a function that rewards true parents and penalizes others is the truth. -/
theorem local_optimum_recovers {labels : List Label} {es truth : Finset Edge} {known : List Edge} {f : Label → Finset Label → ℝ}
    (hwell : ∀ x ∈ es, x.1 ∈ labels ∧ x.2 ∈ labels ∧ x.1 ≠ x.2) (hlab : ∀ e ∈ truth, e.1 ∈ labels ∧ e.2 ∈ labels ∧ e.1 ≠ e.2)
    (hkeep : ∀ e ∈ known, e ∈ es) (hsub : ∀ e ∈ known, e ∈ truth)
    (gain : ∀ e ∈ truth, ∀ L ∈ labels.sublists.toFinset, e.1 ∉ L → e.2 ∉ L → f e.2 L.toFinset < f e.2 (insert e.1 L.toFinset))
    (loss : ∀ e ∈ labels.toFinset ×ˢ labels.toFinset, ∀ L ∈ labels.sublists.toFinset, e.1 ≠ e.2 → e ∉ truth → e.1 ∉ L → e.2 ∉ L →
      (∀ q, (q, e.2) ∈ truth → q ∈ L) → f e.2 (insert e.1 L.toFinset) < f e.2 L.toFinset)
    (hopt : ∀ p n, p ∈ labels → n ∈ labels → p ≠ n → (p, n) ∉ known →
      ((p, n) ∈ es → f n (((es.filter (fun x => x.2 = n)).image Prod.fst).erase p) ≤ f n ((es.filter (fun x => x.2 = n)).image Prod.fst)) ∧
      ((p, n) ∉ es → f n (insert p ((es.filter (fun x => x.2 = n)).image Prod.fst)) ≤ f n ((es.filter (fun x => x.2 = n)).image Prod.fst))) :
    es = truth := by
  have hPiff : ∀ n q, q ∈ (es.filter (fun x => x.2 = n)).image Prod.fst ↔ (q, n) ∈ es := by
    intro n q
    simp only [Finset.mem_image, Finset.mem_filter]
    constructor
    · rintro ⟨⟨x, y⟩, ⟨h1, h2⟩, h3⟩
      simp only at h2 h3
      rw [← h2, ← h3]; exact h1
    · intro hx; exact ⟨_, ⟨hx, rfl⟩, rfl⟩
  generalize hPdef : (fun n => (es.filter (fun x => x.2 = n)).image Prod.fst) = P at *
  have hP : ∀ n, (es.filter (fun x => x.2 = n)).image Prod.fst = P n := fun n => congrFun hPdef n
  simp only [hP] at hPiff hopt
  have hlist : ∀ (P : Finset Label), (∀ q ∈ P, q ∈ labels) → ∃ L ∈ labels.sublists.toFinset, L.toFinset = P ∧ ∀ q, q ∈ L ↔ q ∈ P := by
    intro P hP
    have hm : ∀ q, q ∈ labels.filter (fun q => decide (q ∈ P)) ↔ q ∈ P := by
      intro q
      rw [List.mem_filter, decide_eq_true_eq]
      exact ⟨fun h => h.2, fun h => ⟨hP q h, h⟩⟩
    exact ⟨_, List.mem_toFinset.2 (List.mem_sublists.2 List.filter_sublist), by ext q; rw [List.mem_toFinset, hm], hm⟩
  have hin : ∀ e ∈ truth, e ∈ es := by
    rintro ⟨p, n⟩ he
    by_contra hout
    obtain ⟨l1, l2, l3⟩ := hlab (p, n) he
    have hopt' := (hopt p n l1 l2 l3 (fun hk => hout (hkeep (p, n) hk))).2 hout
    obtain ⟨L, hL, hLP, hmem⟩ := hlist (P n) (fun q hq => (hwell (q, n) ((hPiff n q).1 hq)).1)
    have := gain (p, n) he L hL (fun hh => hout ((hPiff n p).1 ((hmem p).1 hh))) (fun hh => (hwell (n, n) ((hPiff n n).1 ((hmem n).1 hh))).2.2 rfl)
    rw [hLP] at this
    exact absurd this (not_lt.2 hopt')
  refine Finset.Subset.antisymm (fun e he => ?_) hin
  obtain ⟨p, n⟩ := e
  by_contra hout
  obtain ⟨l1, l2, l3⟩ := hwell (p, n) he
  have hopt' := (hopt p n l1 l2 l3 (fun hk => hout (hsub (p, n) hk))).1 he
  obtain ⟨L, hL, hLP, hmem⟩ := hlist ((P n).erase p) (fun q hq => (hwell (q, n) ((hPiff n q).1 (Finset.mem_of_mem_erase hq))).1)
  have := loss (p, n) (Finset.mem_product.2 ⟨List.mem_toFinset.2 l1, List.mem_toFinset.2 l2⟩) L hL l3 hout
    (fun hh => Finset.notMem_erase p (P n) ((hmem p).1 hh))
    (fun hh => (hwell (n, n) ((hPiff n n).1 (Finset.mem_of_mem_erase ((hmem n).1 hh)))).2.2 rfl)
    (fun q hq => (hmem q).2 (Finset.mem_erase.2 ⟨fun e => hout (e ▸ hq), (hPiff n q).2 (hin (q, n) hq)⟩))
  rw [hLP] at this
  simp only [Finset.insert_erase ((hPiff n p).2 he)] at this
  exact absurd this (not_lt.2 hopt')

/-- The tabu search returns networks that cannot be improved. -/
theorem tabu_unimprovable {t : Trajectory} {τ α : ℝ} {R : List (List Bool)} {known : List Edge} {a : SBArgs} {order : Option (List Label)} {complete : DiGraph}
    {pick drop : Label → Nat → Nat} {es : Finset Edge} {rep : Option (ℚ × ℚ)} {e' : Estimator} (hU : UniformData s.cleanEdges t c) (hc : 2 ≤ c) (hτ : 0 < τ) (hα : 0 < α)
    (hK : KnownEdges (sbEnv s.cleanEdges t τ α R) known) (hopt : a.optimizer = "tabu") (hmp : a.maxParents = none) (htl : ∀ k, a.tabuLength = some k → (s.labels.length : ℤ) - 1 ≤ k)
    (htd : ∀ k, a.tabuDuration = some k → (s.labels.length : ℤ) - 1 ≤ |k|) (hpat : ∀ m, a.patience = some m → (s.labels.length : ℤ) - 1 ≤ m + 1)
    (hit : (s.labels.length - 1) * 2 ^ (s.labels.length - 1) ≤ a.iterations) (ho : ∀ o, order = some o → o.Perm s.labels)
    (h : estimateStructure (famScoreOn t τ α) R ⟨s, complete⟩ a order pick drop = (.ok (es, rep), e')) : ¬ Improvable s.cleanEdges t c τ α known es := by
  rintro ⟨n, hn, p, hp, hpn, hk, hbad⟩
  have hloc := tabu_estimate_local_optimum hU hc hτ hα hK hopt hmp htl htd hpat hit ho h hn hp hpn hk
  rcases hbad with ⟨h1, h2⟩ | ⟨h1, h2⟩
  · exact absurd (hloc.1 h1) (not_le.2 h2)
  · exact absurd (hloc.2 h1) (not_le.2 h2)

/-- From some point on the truth is the only network with the prior knowledge that cannot be improved by adding or removing an edge. -/
theorem unimprovable_eventually_truth (hU : ∀ k, UniformData s.cleanEdges (ts k) c) (hc : 2 ≤ c) {τ α : ℝ} (hτ : 0 < τ) (hα : 0 < α) (hN : Tendsto N atTop atTop)
    {known : List Edge} {truth : Finset Edge}
    (hlab : ∀ e ∈ truth, e.1 ∈ s.labels ∧ e.2 ∈ s.labels ∧ e.1 ≠ e.2) (hsub : ∀ e ∈ known, e ∈ truth)
    (htrue : ∀ p n, (p, n) ∈ truth → ∀ K : List Label, (∀ q ∈ K, q ∈ s.labels) → p ∉ K → n ∉ K →
      OccursInTheLongRun s N ts n c K p ∧ MattersInTheLongRun s N ts n c K p)
    (hfalse : ∀ p n, p ∈ s.labels → n ∈ s.labels → p ≠ n → (p, n) ∉ truth → ∀ K : List Label, (∀ q ∈ K, q ∈ s.labels) → p ∉ K → n ∉ K →
      (∀ q, (q, n) ∈ truth → q ∈ K) → SuperfluousInTheLongRun s N ts n c K p) :
    ∃ k₀, ∀ k, k₀ ≤ k → ∀ es : Finset Edge, (∀ x ∈ es, x.1 ∈ s.labels ∧ x.2 ∈ s.labels ∧ x.1 ≠ x.2) → (∀ x ∈ known, x ∈ es) →
      ¬ Improvable s.cleanEdges (ts k) c τ α known es → es = truth := by
  have hgain : ∀ᶠ k in atTop, ∀ e ∈ truth, ∀ L ∈ s.labels.sublists.toFinset, e.1 ∉ L → e.2 ∉ L →
      likelihood s.cleanEdges (ts k) c τ α e.2 L.toFinset < likelihood s.cleanEdges (ts k) c τ α e.2 (insert e.1 L.toFinset) := by
    rw [Filter.eventually_all_finset]
    rintro ⟨p, n⟩ he
    refine eventually_sublists _ (fun L hL => ?_)
    by_cases hpL : p ∈ L
    · exact Eventually.of_forall (fun _ h => absurd hpL h)
    by_cases hnL : n ∈ L
    · exact Eventually.of_forall (fun _ _ h => absurd hnL h)
    obtain ⟨g1, g2⟩ := htrue p n he L hL hpL hnL
    filter_upwards [likelihood_growth_of hU hc hτ hα hN (hlab _ he).1 hpL (fun a ha x z hx hz => .inr (g1 a ha x z hx hz)) g2] with k hk _ _
    exact hk
  have hloss : ∀ᶠ k in atTop, ∀ e ∈ s.labels.toFinset ×ˢ s.labels.toFinset, ∀ L ∈ s.labels.sublists.toFinset, e.1 ≠ e.2 → e ∉ truth → e.1 ∉ L → e.2 ∉ L →
      (∀ q, (q, e.2) ∈ truth → q ∈ L) →
      likelihood s.cleanEdges (ts k) c τ α e.2 (insert e.1 L.toFinset) < likelihood s.cleanEdges (ts k) c τ α e.2 L.toFinset := by
    rw [Filter.eventually_all_finset]
    rintro ⟨p, n⟩ he
    rw [Finset.mem_product, List.mem_toFinset, List.mem_toFinset] at he
    refine eventually_sublists _ (fun L hL => ?_)
    by_cases hcond : p ≠ n ∧ (p, n) ∉ truth ∧ p ∉ L ∧ n ∉ L ∧ ∀ q, (q, n) ∈ truth → q ∈ L
    · obtain ⟨c1, c2, c3, c4, c5⟩ := hcond
      filter_upwards [likelihood_penalty hU hc hτ hα hN he.1 c3 (hfalse p n he.1 he.2 c1 c2 L hL c3 c4 c5)] with k hk _ _ _ _ _
      exact hk
    · exact Eventually.of_forall (fun _ c1 c2 c3 c4 c5 => absurd ⟨c1, c2, c3, c4, c5⟩ hcond)
  obtain ⟨k₀, hk₀⟩ := eventually_atTop.1 (hgain.and hloss)
  refine ⟨k₀, fun k hk es hwell hkeep himp => ?_⟩
  obtain ⟨gain, loss⟩ := hk₀ k hk
  refine local_optimum_recovers hwell hlab (fun e he => hkeep e he) hsub gain loss (fun p n l1 l2 l3 hk => ⟨fun hin => ?_, fun hout => ?_⟩)
  · by_contra hlt
    exact himp ⟨n, l2, p, l1, l3, hk, .inl ⟨hin, not_le.1 hlt⟩⟩
  · by_contra hlt
    exact himp ⟨n, l2, p, l1, l3, hk, .inr ⟨hout, not_le.1 hlt⟩⟩

/-- **C194** Enough data reveal the network.  All variables have `c ≥ 2` states, the hyperparameters are positive, and score-based estimation runs by tabu search under
the conditions of C130.  `truth` is a set of edges between different variables that contains the prior knowledge.  Suppose that, as the data grow, every true parent matters to its child
whatever other variables are taken into account (and all states occur), and that every other variable is superfluous once the true parents are taken into account.  Then
from some point on every network returned has exactly the edges of `truth`, whatever is drawn and in whatever order the variables are processed. -/
theorem score_network_eventually_recovered (hU : ∀ k, UniformData s.cleanEdges (ts k) c) (hc : 2 ≤ c) {τ α : ℝ} (hτ : 0 < τ)
    (hα : 0 < α) (hN : Tendsto N atTop atTop) {R : List (List Bool)} {known : List Edge} (hK : KnownEdges (sbEnv s.cleanEdges (ts 0) τ α R) known) {a : SBArgs}
    (hopt : a.optimizer = "tabu") (hmp : a.maxParents = none) (htl : ∀ k, a.tabuLength = some k → (s.labels.length : ℤ) - 1 ≤ k)
    (htd : ∀ k, a.tabuDuration = some k → (s.labels.length : ℤ) - 1 ≤ |k|) (hpat : ∀ m, a.patience = some m → (s.labels.length : ℤ) - 1 ≤ m + 1)
    (hit : (s.labels.length - 1) * 2 ^ (s.labels.length - 1) ≤ a.iterations) {truth : Finset Edge}
    (hlab : ∀ e ∈ truth, e.1 ∈ s.labels ∧ e.2 ∈ s.labels ∧ e.1 ≠ e.2) (hsub : ∀ e ∈ known, e ∈ truth)
    (htrue : ∀ p n, (p, n) ∈ truth → ∀ K : List Label, (∀ q ∈ K, q ∈ s.labels) → p ∉ K → n ∉ K →
      OccursInTheLongRun s N ts n c K p ∧ MattersInTheLongRun s N ts n c K p)
    (hfalse : ∀ p n, p ∈ s.labels → n ∈ s.labels → p ≠ n → (p, n) ∉ truth → ∀ K : List Label, (∀ q ∈ K, q ∈ s.labels) → p ∉ K → n ∉ K →
      (∀ q, (q, n) ∈ truth → q ∈ K) → SuperfluousInTheLongRun s N ts n c K p) :
    ∃ k₀, ∀ k, k₀ ≤ k → ∀ (complete : DiGraph) (order : Option (List Label)) (pick drop : Label → Nat → Nat) (es : Finset Edge) (rep : Option (ℚ × ℚ))
      (e' : Estimator), (∀ o, order = some o → o.Perm s.labels) →
      estimateStructure (famScoreOn (ts k) τ α) R ⟨s, complete⟩ a order pick drop = (.ok (es, rep), e') → es = truth := by
  have hK : ∀ k, KnownEdges (sbEnv s.cleanEdges (ts k) τ α R) known := fun _ => known_data hK
  obtain ⟨k₀, hk₀⟩ := unimprovable_eventually_truth hU hc hτ hα hN hlab hsub htrue hfalse
  refine ⟨k₀, fun k hk complete order pick drop es rep e' ho h => ?_⟩
  have hws : WFStructure s := ⟨(hU 0).wf.nodup, (hU 0).wf.idxLen, (hU 0).wf.valLen⟩
  exact hk₀ k hk es (estimate_well_formed (e := ⟨s, complete⟩) hws (hK k) ho h).1 (score_based_keeps_known_partial (e := ⟨s, complete⟩) hws (hK k) ho (by rw [hmp]; simp) h)
    (tabu_unimprovable (hU k) hc hτ hα (hK k) hopt hmp htl htd hpat hit ho h)

/-! ## Data close to limit statistics -/

/-- The statistics of the data are close to given limits: the times and counts per unit of size to `S` and `μ`, and, given all parents, the counts to `ρ` times the times, on
the scale of the square root of `N log N`. -/
def CloseTo (s : Structure) (c : Nat) (par : Label → List Label) (S : Label → List Label → Nat → List Nat → ℝ) (μ ρ : Label → List Label → Nat → Nat → List Nat → ℝ)
    (N ε : ℝ) (t : Trajectory) : Prop :=
  ∀ n ∈ s.labels, ∀ L ∈ s.labels.sublists, ∀ u ∈ assignments (L.map (fun _ => c)), ∀ x < c,
    |(residence s t n L x u : ℝ) / N - S n L x u| < ε ∧ ∀ y < c, y ≠ x → |(transitions s t n L x y u : ℝ) / N - μ n L x y u| < ε ∧
      ((∀ p ∈ par n, p ∈ L) → ((transitions s t n L x y u : ℝ) - ρ n L x y u * (residence s t n L x u : ℝ)) ^ 2 / (N * Real.log N) < ε)

/-- If the limits are those of `truth`, then on large data close enough to them `truth` is the only network with the prior knowledge that cannot be improved. -/
theorem truth_if_close (hc : 2 ≤ c) {τ α : ℝ} (hτ : 0 < τ) (hα : 0 < α) {known : List Edge} {truth : Finset Edge}
    (hlab : ∀ e ∈ truth, e.1 ∈ s.labels ∧ e.2 ∈ s.labels ∧ e.1 ≠ e.2) (hsub : ∀ e ∈ known, e ∈ truth)
    {par : Label → List Label} (hpar : ∀ p n, p ∈ par n ↔ (p, n) ∈ truth) {S : Label → List Label → Nat → List Nat → ℝ}
    {μ ρ : Label → List Label → Nat → Nat → List Nat → ℝ}
    (hS : ∀ n ∈ s.labels, ∀ L ∈ s.labels.sublists, n ∉ L → ∀ f : Label → Nat, (∀ q, f q < c) → ∀ x < c, 0 < S n L x (L.map f))
    (hρ : ∀ n ∈ s.labels, ∀ L ∈ s.labels.sublists, n ∉ L → (∀ q ∈ par n, q ∈ L) → ∀ f : Label → Nat, (∀ q, f q < c) → ∀ x < c, ∀ y < c, y ≠ x →
      0 < ρ n L x y (L.map f))
    (hdep : ∀ n ∈ s.labels, ∀ L ∈ s.labels.sublists, (∀ q ∈ par n, q ∈ L) → ∀ f g : Label → Nat, (∀ q ∈ par n, f q = g q) → ∀ x y,
      ρ n L x y (L.map f) = ρ n L x y (L.map g))
    (hmat : ∀ p n, (p, n) ∈ truth → ∀ K : List Label, (∀ q ∈ K, q ∈ s.labels) → p ∉ K → n ∉ K → ∃ f : Label → Nat, (∀ q, f q < c) ∧ ∃ x y z z', x < c ∧ y < c ∧ y ≠ x ∧
      z < c ∧ z' < c ∧ μ n (ordered s (p :: K)) x y ((ordered s (p :: K)).map (Function.update f p z)) / S n (ordered s (p :: K)) x ((ordered s (p :: K)).map (Function.update f p z)) ≠
        μ n (ordered s (p :: K)) x y ((ordered s (p :: K)).map (Function.update f p z')) / S n (ordered s (p :: K)) x ((ordered s (p :: K)).map (Function.update f p z'))) :
    ∃ ε > 0, ∃ m₀ : ℝ, ∀ m, m₀ ≤ m → ∀ t, UniformData s.cleanEdges t c → CloseTo s c par S μ ρ m ε t →
      ∀ es : Finset Edge, (∀ x ∈ es, x.1 ∈ s.labels ∧ x.2 ∈ s.labels ∧ x.1 ≠ x.2) → (∀ x ∈ known, x ∈ es) → ¬ Improvable s.cleanEdges t c τ α known es → es = truth := by
  by_contra hcon
  push Not at hcon
  choose m hm ts hU hclose es hwell hkeep himp hne using fun k : ℕ => hcon (1 / ((k : ℝ) + 1)) (by positivity) ((k : ℝ) + 1)
  have hN : Tendsto (fun k => m k) atTop atTop := tendsto_atTop_mono (fun k => le_trans (by linarith) (hm k)) tendsto_natCast_atTop_atTop
  have hm1 : ∀ k, 1 ≤ m k := fun k => le_trans (by linarith [Nat.cast_nonneg (α := ℝ) k]) (hm k)
  have hε : Tendsto (fun k : ℕ => 1 / ((k : ℝ) + 1)) atTop (𝓝 0) := tendsto_one_div_add_atTop_nhds_zero_nat
  have hord : ∀ K, ordered s K ∈ s.labels.sublists := fun K => List.mem_sublists.2 List.filter_sublist
  have hmem : ∀ K q, q ∈ ordered s K ↔ q ∈ s.labels ∧ q ∈ K := fun K q => by
    unfold ordered; rw [List.mem_filter, decide_eq_true_eq]
  have hup : ∀ (f : Label → Nat) p z, (∀ q, f q < c) → z < c → ∀ q, Function.update f p z q < c := by
    intro f p z hf hz q
    by_cases e : q = p
    · subst e; rw [Function.update_self]; exact hz
    · rw [Function.update_of_ne e]; exact hf q
  have hshare : ∀ n ∈ s.labels, ∀ K p, ∀ f : Label → Nat, (∀ q, f q < c) → ∀ x < c, ∀ z < c,
      Tendsto (fun k => ((givenWith s (ts k) n c K p f z).time x : ℝ) / m k) atTop (𝓝 (S n (ordered s (p :: K)) x ((ordered s (p :: K)).map (Function.update f p z)))) := by
    intro n hn K p f hf x hx z hz
    refine tendsto_iff_dist_tendsto_zero.2 (squeeze_zero (fun _ => dist_nonneg) (fun k => ?_) hε)
    rw [Real.dist_eq]
    exact (hclose k n hn _ (hord _) _ (lt_assignments (hup f p z hf hz)) x hx).1.le
  have hcount : ∀ n ∈ s.labels, ∀ K p, ∀ f : Label → Nat, (∀ q, f q < c) → ∀ x < c, ∀ y < c, y ≠ x → ∀ z < c,
      Tendsto (fun k => ((givenWith s (ts k) n c K p f z).count x y : ℝ) / m k) atTop
        (𝓝 (μ n (ordered s (p :: K)) x y ((ordered s (p :: K)).map (Function.update f p z)))) := by
    intro n hn K p f hf x hx y hy hyx z hz
    refine tendsto_iff_dist_tendsto_zero.2 (squeeze_zero (fun _ => dist_nonneg) (fun k => ?_) hε)
    rw [Real.dist_eq]
    have := ((hclose k n hn _ (hord (p :: K)) _ (lt_assignments (hup f p z hf hz)) x hx).2 y hy hyx).1.le
    rwa [show (givenWith s (ts k) n c K p f z).count x y = transitions s (ts k) n (ordered s (p :: K)) x y ((ordered s (p :: K)).map (Function.update f p z)) from if_neg hyx.symm]
  have hset : ∀ n ∈ s.labels, ∀ K p, n ∉ p :: K → ∀ f : Label → Nat, (∀ q, f q < c) → ∀ x < c, ∀ z < c,
      SettlesAt (fun k => m k) (fun k => givenWith s (ts k) n c K p f z) c x (S n (ordered s (p :: K)) x ((ordered s (p :: K)).map (Function.update f p z)))
        (fun y => μ n (ordered s (p :: K)) x y ((ordered s (p :: K)).map (Function.update f p z)) / S n (ordered s (p :: K)) x ((ordered s (p :: K)).map (Function.update f p z))) := by
    intro n hn K p hnK f hf x hx z hz
    have hpos := hS n hn _ (hord (p :: K)) (fun hh => hnK ((hmem _ _).1 hh).2) _ (hup f p z hf hz) x hx
    refine ⟨hpos, hshare n hn K p f hf x hx z hz, fun y hy hyx => ?_⟩
    refine ((hcount n hn K p f hf x hx y hy hyx z hz).div (hshare n hn K p f hf x hx z hz) hpos.ne').congr' ?_
    filter_upwards [hN.eventually_gt_atTop 0] with k hk
    exact div_div_div_cancel_right₀ hk.ne' _ _
  obtain ⟨k₀, hk₀⟩ := unimprovable_eventually_truth (s := s) (ts := ts) hU hc hτ hα hN hlab hsub
    (fun p n he K hKl hpK hnK => by
      obtain ⟨l1, l2, l3⟩ := hlab _ he
      have hn : n ∉ p :: K := by
        simp only [List.mem_cons, not_or]
        exact ⟨fun e => l3 e.symm, hnK⟩
      refine ⟨fun f hf x z hx hz => ⟨_, _, hset n l2 K p hn f hf x hx z hz⟩, ?_⟩
      obtain ⟨f, hf, x, y, z, z', hx, hy, hyx, hz, hz', hne'⟩ := hmat p n he K hKl hpK hnK
      exact ⟨f, hf, x, y, z, z', hx, hy, hyx, hz, hz', _, _, _, _, hset n l2 K p hn f hf x hx z hz, hset n l2 K p hn f hf x hx z' hz', hne'⟩)
    (fun p n hp hn hpn hout K hKl hpK hnK hsup f hf x hx => by
      have hnK' : n ∉ p :: K := by
        simp only [List.mem_cons, not_or]
        exact ⟨fun e => hpn e.symm, hnK⟩
      have hparL : ∀ q ∈ par n, q ∈ ordered s (p :: K) := fun q hq =>
        (hmem _ _).2 ⟨(hlab _ ((hpar q n).1 hq)).1, List.mem_cons_of_mem _ (hsup q ((hpar q n).1 hq))⟩
      have hnL : n ∉ ordered s (p :: K) := fun hh => hnK' ((hmem _ _).1 hh).2
      refine ⟨fun y => ρ n (ordered s (p :: K)) x y ((ordered s (p :: K)).map f), fun z hz => ⟨_, (hset n hn K p hnK' f hf x hx z hz).pos,
        (hset n hn K p hnK' f hf x hx z hz).share, fun y hy hyx => ⟨hρ n hn _ (hord _) hnL hparL f hf x hx y hy hyx, ?_⟩⟩⟩
      refine squeeze_zero (fun k => div_nonneg (sq_nonneg _) (mul_nonneg (zero_le_one.trans (hm1 k)) (Real.log_nonneg (hm1 k)))) (fun k => ?_) hε
      have := (((hclose k n hn _ (hord (p :: K)) _ (lt_assignments (hup f p z hf hz)) x hx).2 y hy hyx).2 hparL).le
      have hag : ∀ q ∈ par n, Function.update f p z q = f q := by
        intro q hq
        refine Function.update_of_ne ?_ _ _
        rintro rfl
        exact hout ((hpar q n).1 hq)
      rw [hdep n hn _ (hord (p :: K)) hparL (Function.update f p z) f hag] at this
      rwa [show (givenWith s (ts k) n c K p f z).count x y = transitions s (ts k) n (ordered s (p :: K)) x y ((ordered s (p :: K)).map (Function.update f p z)) from if_neg hyx.symm,
        show (givenWith s (ts k) n c K p f z).time x = residence s (ts k) n (ordered s (p :: K)) x ((ordered s (p :: K)).map (Function.update f p z)) from rfl])
  exact hne k₀ (hk₀ k₀ le_rfl _ (hwell k₀) (hkeep k₀) (himp k₀))

/-! ## Cases -/

/-- Observing the same data again and again, where the rates agree exactly. -/
theorem repeated_fluctuatesAt {t : Trajectory} (hl : t.times.length = t.rows.length) (n : Label) (K : List Label) (p : Label) (a : Label → Nat) {x : Nat} (z : Nat)
    (h : 0 < (givenWith s t n c K p a z).time x) {r : Nat → ℚ}
    (hr : ∀ y, y < c → y ≠ x → 0 < r y ∧ (givenWith s t n c K p a z).count x y = r y * (givenWith s t n c K p a z).time x) :
    FluctuatesAt (fun k => (k : ℝ)) (fun k => givenWith s (repeated t k) n c K p a z) c x ((givenWith s t n c K p a z).time x : ℚ) (fun y => (r y : ℝ)) := by
  have hs := repeated_settlesAt (s := s) (c := c) hl n K p a z h
  refine ⟨hs.pos, hs.share, fun y hy hyx => ⟨by exact_mod_cast (hr y hy hyx).1, ?_⟩⟩
  refine tendsto_const_nhds.congr (fun k => ?_)
  have e := (hr y hy hyx).2
  unfold givenWith at e ⊢
  rw [(given_repeated s t hl k n c _ _).2, (given_repeated s t hl k n c _ _).1, show (((k : ℚ) * (given s t n c (p :: K) (Function.update a p z)).time x : ℚ) : ℝ) =
    (k : ℝ) * ((given s t n c (p :: K) (Function.update a p z)).time x : ℚ) by push_cast; ring]
  have e' : ((k * (given s t n c (p :: K) (Function.update a p z)).count x y : ℕ) : ℝ) = k * (r y * ((given s t n c (p :: K) (Function.update a p z)).time x : ℚ)) := by
    push_cast
    congr 1
    exact_mod_cast e
  rw [e']
  ring

namespace Demo

/-- One round through the states of `X` and `Y`: `X` moves at rate 1/2 or 1/4, depending on `Y`; so does `Y`, but not depending on `X`. -/
def roundData : Trajectory := ⟨[1, 1, 2, 2, 1, 2, 2, 1],
  [[0, 0, 1, 0], [1, 0, 1, 1], [1, 1, 0, 1], [0, 1, 0, 0], [0, 0, 0, 1], [0, 1, 1, 1], [1, 1, 1, 0], [1, 0, 0, 0]], 3⟩

theorem roundData_ok : UniformData exS2.cleanEdges roundData 2 where
  wf := ⟨by decide, rfl, rfl⟩
  data := dataOK_of_check _ _ ⟨by decide, rfl, rfl⟩ rfl rfl (by decide) (by decide) (by decide)
  cards := by decide
  times := by decide

theorem given_round (n p : Label) (h : ordered exS2.cleanEdges [p] = [p]) (a : Label → Nat) (z : Nat) :
    givenWith exS2.cleanEdges roundData n 2 [] p a z = observed exS2.cleanEdges roundData n [p] 2 [z] := by
  unfold givenWith given
  rw [h]
  simp

/-- `X` is superfluous to `Y`. -/
theorem round_superfluous : SuperfluousInTheLongRun exS2.cleanEdges (fun k => (k : ℝ)) (repeated roundData) "Y" 2 [] "X" := by
  intro a _ x hx
  have hx' : x = 0 ∨ x = 1 := by omega
  refine ⟨fun _ => ((if x = 0 then 1 / 2 else 1 / 4 : ℚ) : ℝ), fun z hz => ⟨_, repeated_fluctuatesAt (r := fun _ => if x = 0 then 1 / 2 else 1 / 4)
    roundData_ok.data.len "Y" [] "X" a z ?_ (fun y hy hyx => ?_)⟩⟩
  · have hz' : z = 0 ∨ z = 1 := by omega
    rw [given_round _ _ (by decide +kernel)]
    rcases hx' with rfl | rfl <;> rcases hz' with rfl | rfl <;> decide +kernel
  · have hz' : z = 0 ∨ z = 1 := by omega
    have hy' : y = 0 ∨ y = 1 := by omega
    rw [given_round _ _ (by decide +kernel)]
    revert hyx
    rcases hx' with rfl | rfl <;> rcases hz' with rfl | rfl <;> rcases hy' with rfl | rfl <;> decide +kernel

/-- `Y` matters to `X`. -/
theorem round_matters : OccursInTheLongRun exS2.cleanEdges (fun k => (k : ℝ)) (repeated roundData) "X" 2 [] "Y" ∧
    MattersInTheLongRun exS2.cleanEdges (fun k => (k : ℝ)) (repeated roundData) "X" 2 [] "Y" := by
  constructor
  · intro a _ x z hx hz
    refine ⟨_, _, repeated_settlesAt roundData_ok.data.len "X" [] "Y" a z ?_⟩
    have hx' : x = 0 ∨ x = 1 := by omega
    have hz' : z = 0 ∨ z = 1 := by omega
    rw [given_round _ _ (by decide +kernel)]
    rcases hx' with rfl | rfl <;> rcases hz' with rfl | rfl <;> decide +kernel
  · exact (repeated_behaves roundData_ok "X" [] "Y").2 ⟨fun _ => 0, fun _ => by norm_num, 0, 1, 0, 1, by decide +kernel, by decide +kernel, by decide +kernel,
      by decide +kernel, by decide +kernel, by decide +kernel, by decide +kernel, by decide +kernel⟩

example : ∃ k₀, ∀ k, k₀ ≤ k → ∃ v w, scoreOfParents exS2.cleanEdges (repeated roundData k) 1 1 "Y" ∅ = .ok v ∧
    scoreOfParents exS2.cleanEdges (repeated roundData k) 1 1 "Y" {"X"} = .ok w ∧ w < v :=
  score_eventually_penalizes (s := exS2.cleanEdges) (ts := repeated roundData) (uniform_repeated roundData_ok) rfl (le_refl 2) one_pos one_pos
    tendsto_natCast_atTop_atTop (by decide) (K := []) (by simp) (by decide) (by simp) round_superfluous

theorem round_no_others : ∀ (p n : Label) (K : List Label), (p = "X" ∧ n = "Y" ∨ p = "Y" ∧ n = "X") → (∀ q ∈ K, q ∈ exS2.labels) → p ∉ K → n ∉ K → K = [] := by
  intro p n K h hK h1 h2
  cases K with
  | nil => rfl
  | cons q K =>
    have hq : q = "X" ∨ q = "Y" := by simpa [exS2] using hK q (by simp)
    rcases h with ⟨rfl, rfl⟩ | ⟨rfl, rfl⟩ <;> rcases hq with rfl | rfl <;> simp at h1 h2

theorem round_true : ∀ p n, (p, n) ∈ ({("Y", "X")} : Finset Edge) → ∀ K : List Label, (∀ q ∈ K, q ∈ exS2.labels) → p ∉ K → n ∉ K →
    OccursInTheLongRun exS2.cleanEdges (fun k => (k : ℝ)) (repeated roundData) n 2 K p ∧ MattersInTheLongRun exS2.cleanEdges (fun k => (k : ℝ)) (repeated roundData) n 2 K p := by
  intro p n h K hK h1 h2
  obtain ⟨rfl, rfl⟩ := Prod.mk.inj (Finset.mem_singleton.1 h)
  rw [round_no_others _ _ K (.inr ⟨rfl, rfl⟩) hK h1 h2]
  exact round_matters

theorem round_false : ∀ p n, p ∈ exS2.labels → n ∈ exS2.labels → p ≠ n → (p, n) ∉ ({("Y", "X")} : Finset Edge) → ∀ K : List Label, (∀ q ∈ K, q ∈ exS2.labels) → p ∉ K →
    n ∉ K → (∀ q, (q, n) ∈ ({("Y", "X")} : Finset Edge) → q ∈ K) → SuperfluousInTheLongRun exS2.cleanEdges (fun k => (k : ℝ)) (repeated roundData) n 2 K p := by
  intro p n hp hn hpn h K hK h1 h2 _
  have hp' : p = "X" ∨ p = "Y" := by simpa [exS2] using hp
  have hn' : n = "X" ∨ n = "Y" := by simpa [exS2] using hn
  have : p = "X" ∧ n = "Y" := by
    rcases hp' with rfl | rfl <;> rcases hn' with rfl | rfl <;> simp at hpn h ⊢
  obtain ⟨rfl, rfl⟩ := this
  rw [round_no_others _ _ K (.inl ⟨rfl, rfl⟩) hK h1 h2]
  exact round_superfluous

/-- With the default arguments and enough rounds, estimation returns exactly the network `Y → X`, whatever is drawn. -/
example : ∃ k₀, ∀ k, k₀ ≤ k → ∀ pick drop, ∃ rep e',
    estimateStructure (famScoreOn (repeated roundData k) 1 1) [[true, true], [true, true]] (Estimator.new exS2) defaultArgs none pick drop =
      (.ok ({("Y", "X")}, rep), e') := by
  obtain ⟨k₀, hk₀⟩ := score_network_eventually_recovered (s := exS2) (ts := repeated roundData) (a := defaultArgs) (R := [[true, true], [true, true]]) (known := [])
    (truth := {("Y", "X")}) (N := fun k => (k : ℝ)) (uniform_repeated roundData_ok) (le_refl 2) one_pos one_pos tendsto_natCast_atTop_atTop (known_data exU_known) rfl rfl
    (by simp [defaultArgs]) (by simp [defaultArgs]) (by simp [defaultArgs]) (by decide) (by decide) (by simp)
    round_true round_false
  refine ⟨k₀, fun k hk pick drop => ?_⟩
  obtain ⟨es, rep, e', h, -⟩ := score_based_returns_partial (a := defaultArgs) (order := none) (uniform_repeated roundData_ok k) (le_refl 2) one_pos one_pos
    (known_data exU_known)
    ⟨by simp [defaultArgs], by simp [defaultArgs], by simp [defaultArgs]⟩
    (by
      intro n hn
      have : n = "X" ∨ n = "Y" := by simpa [exS2] using hn
      rcases this with rfl | rfl
      · exact ⟨"Y", by simp [candidates, sbEnv, exS2, Structure.cleanEdges, parentsIn]⟩
      · exact ⟨"X", by simp [candidates, sbEnv, exS2, Structure.cleanEdges, parentsIn]⟩) (Estimator.new exS2).complete (by simp) pick drop
  rw [hk₀ k hk _ none pick drop es rep e' (by simp) h] at h
  exact ⟨rep, e', h⟩

end Demo
end PyCTBN
