import Verif.Props.Walk
import Verif.Props.ScoreEst
import Verif.Lemmas.Assign

/-! The network that score-based estimation returns with tabu search is a local optimum of the marginal likelihood (C130). -/

namespace PyCTBN
open Spec SearchEnv

namespace Spec

/-- The marginal likelihood of the trajectory of `n` given parents `P`, all variables having `c` states: the product over the
assignments of the parents of the marginal likelihood of what was observed of `n` meanwhile. -/
noncomputable def likelihood (s : Structure) (t : Trajectory) (c : Nat) (tau alpha : ℝ) (n : Label) (P : Finset Label) : ℝ :=
  ((assignments ((ordered s P.toList).map (fun _ => c))).map
    (fun u => (observed s t n (ordered s P.toList) c u).marginal tau alpha c)).prod

end Spec

/-- The score of a parent set is the logarithm of its marginal likelihood. -/
theorem score_of_parents_exact {s : Structure} {t : Trajectory} {c : Nat} (hU : UniformData s t c) (he : s.edges = []) (hc : 2 ≤ c)
    {tau alpha : ℝ} (hτ : 0 < tau) (hα : 0 < alpha) {n : Label} (hn : n ∈ s.labels) {P : Finset Label} (hP : ∀ p ∈ P, p ∈ s.labels) :
    ∃ v, scoreOfParents s t tau alpha n P = .ok v ∧ Real.exp v = likelihood s t c tau alpha n P := by
  have hE : SearchReady (sbEnv s t tau alpha []) := ⟨hU.wf, he⟩
  have hg := initGraph_spec (E := sbEnv s t tau alpha []) (n := n) P.toList hE hn (fun p hp => hP p (Finset.mem_toList.1 hp))
  have hcn : ∀ l ∈ s.labels, s.getStatesNumber l = .ok c := by
    intro l hl
    obtain ⟨w, hw', e⟩ := getStatesNumber_mem hU.wf hl
    rw [e, hU.cards w hw']
  have hpar : parentsOf ((sbEnv s t tau alpha []).initGraph n P.toList) n = ordered s P.toList := by
    rw [parentsOf_eq hg.reach]
    unfold ordered
    apply List.filter_congr
    intro l _
    have hm := hg.mem (l, n)
    simp only [true_and] at hm
    have hes : ∀ x, x ∉ (sbEnv s t tau alpha []).struct.edges := fun x hx => by
      have : x ∈ s.edges := hx
      rw [he] at this
      cases this
    exact decide_eq_decide.2 ((or_iff_left (hes _)).trans hm)
  have hps : ((ordered s P.toList).map (fun _ => c)).map Except.ok =
      (parentsOf ((sbEnv s t tau alpha []).initGraph n P.toList) n).map s.getStatesNumber := by
    rw [hpar, List.map_map]
    apply List.map_congr_left
    intro l hl
    rw [hcn l (List.mem_filter.1 hl).1]
    rfl
  obtain ⟨v, g', h1, h2⟩ := score_is_log_marginal_partial hg.reach hU.data hU.times hn (hcn n hn) hc hps
    (fun p hp => by obtain ⟨_, _, rfl⟩ := List.mem_map.1 hp; exact Or.inr rfl) hτ hα []
    (assignments_nodup _) (fun u => mem_assignments)
  obtain ⟨-, -, h3⟩ := scoreGraph_spec hE hg hn h1
  have h4 := h3 _ (famscore_of_parent_set hU.wf he t tau alpha [] hn)
  rw [Finset.toList_toFinset] at h4
  refine ⟨v, h4, ?_⟩
  rw [h2, hpar]
  rfl

section
variable {s : Structure} {t : Trajectory} {c : Nat} {tau alpha : ℝ} {R : List (List Bool)} {known : List Edge} {a : SBArgs}
  {complete : DiGraph} {order : Option (List Label)} {pick drop : Label → Nat → Nat} {es : Finset Edge} {rep : Option (ℚ × ℚ)}
  {e' : Estimator}

/-- If the search of `n` ended in a local optimum of the score, then no single edge into `n` that is not prior knowledge can be removed from the network returned,
and none added, so as to increase the marginal likelihood of `n`. -/
theorem estimate_local_optimum (hU : UniformData s.cleanEdges t c) (hc : 2 ≤ c) (hτ : 0 < tau) (hα : 0 < alpha)
    (hK : KnownEdges (sbEnv s.cleanEdges t tau alpha R) known)
    (ho : ∀ o, order = some o → o.Perm s.labels)
    (h : estimateStructure (famScoreOn t tau alpha) R ⟨s, complete⟩ a order pick drop = (.ok (es, rep), e'))
    {n p : Label} (hn : n ∈ s.labels) (hp : p ∈ s.labels) (hpn : p ≠ n) (hk : (p, n) ∉ known)
    (hopt : ∀ r, estimateParents (sbEnv s.cleanEdges t tau alpha R) a (pick n) (drop n) n = .ok r →
      ∃ b, LocalOptimum (scoreOfParents s.cleanEdges t tau alpha n) none (candidates (sbEnv s.cleanEdges t tau alpha R) known n) (parentsIn r n) b) :
    let P := (es.filter (fun x => x.2 = n)).image Prod.fst
    ((p, n) ∈ es → likelihood s.cleanEdges t c tau alpha n (P.erase p) ≤ likelihood s.cleanEdges t c tau alpha n P) ∧
    ((p, n) ∉ es → likelihood s.cleanEdges t c tau alpha n (insert p P) ≤ likelihood s.cleanEdges t c tau alpha n P) := by
  intro P
  have hE : SearchReady (sbEnv s.cleanEdges t tau alpha R) := ⟨hU.wf, rfl⟩
  have hws : WFStructure s := ⟨hU.wf.nodup, hU.wf.idxLen, hU.wf.valLen⟩
  obtain ⟨k1, k2⟩ := estimate_is_union ho h
  obtain ⟨r, hr⟩ := k1 n hn
  -- the edges into `n` are those its search returned
  have hesr : ∀ x : Edge, x.2 = n → (x ∈ es ↔ x ∈ r) := by
    intro x hx
    rw [k2]
    constructor
    · rintro ⟨m, hm, r', hr', hxr⟩
      obtain ⟨-, i2, -, -⟩ := nodeResult_spec hws hK hr'
      have : m = n := by rw [← (i2 x hxr).1, hx]
      subst this
      rw [hr] at hr'; cases hr'; exact hxr
    · intro hxr; exact ⟨n, hn, r, hr, hxr⟩
  have hPr : P = parentsIn r n := by
    ext q
    simp only [P, parentsIn, Finset.mem_image, Finset.mem_filter, List.mem_toFinset, List.mem_map, List.mem_filter, decide_eq_true_eq]
    constructor
    · rintro ⟨x, ⟨h1, h2⟩, h3⟩; exact ⟨x, ⟨(hesr x h2).1 h1, h2⟩, h3⟩
    · rintro ⟨x, ⟨h1, h2⟩, h3⟩; exact ⟨x, ⟨(hesr x h2).2 h1, h2⟩, h3⟩
  have hPl : ∀ q ∈ P, q ∈ s.cleanEdges.labels := by
    intro q hq
    rw [hPr] at hq
    simp only [parentsIn, List.mem_toFinset, List.mem_map, List.mem_filter, decide_eq_true_eq] at hq
    obtain ⟨x, ⟨h1, h2⟩, rfl⟩ := hq
    exact ((nodeResult_spec hws hK hr).2.1 x h1).2.1
  obtain ⟨b, hb⟩ := hopt r hr
  rw [← hPr] at hb
  have hcand : p ∈ candidates (sbEnv s.cleanEdges t tau alpha R) known n := by
    unfold candidates
    rw [Finset.mem_sdiff, Finset.mem_erase, List.mem_toFinset]
    refine ⟨⟨hpn, hp⟩, fun hc => hk ?_⟩
    simp only [parentsIn, List.mem_toFinset, List.mem_map, List.mem_filter, decide_eq_true_eq] at hc
    obtain ⟨⟨x, y⟩, ⟨h1, h2⟩, h3⟩ := hc
    simp only at h2 h3
    rw [← h2, ← h3]; exact h1
  have hPiff : (p, n) ∈ es ↔ p ∈ P := by
    simp only [P, Finset.mem_image, Finset.mem_filter]
    constructor
    · intro hx; exact ⟨_, ⟨hx, rfl⟩, rfl⟩
    · rintro ⟨⟨x, y⟩, ⟨h1, h2⟩, h3⟩
      simp only at h2 h3
      rw [← h2, ← h3]; exact h1
  obtain ⟨v, v1, v2⟩ := score_of_parents_exact hU rfl hc hτ hα hn hPl
  have hbv : b = v := by have := hb.score; rw [v1] at this; injection this with this; exact this.symm
  have hle : ∀ Q : Finset Label, (∀ q ∈ Q, q ∈ s.cleanEdges.labels) → (∃ x, scoreOfParents s.cleanEdges t tau alpha n Q = .ok x ∧ x ≤ b) →
      likelihood s.cleanEdges t c tau alpha n Q ≤ likelihood s.cleanEdges t c tau alpha n P := by
    rintro Q hQ ⟨x, hx, hxb⟩
    obtain ⟨w, w1, w2⟩ := score_of_parents_exact hU rfl hc hτ hα hn hQ
    rw [hx] at w1
    injection w1 with w1
    rw [← w2, ← v2]
    exact Real.exp_le_exp.2 (by rw [← w1, ← hbv]; exact hxb)
  refine ⟨fun hin => hle _ (fun q hq => hPl q (Finset.mem_of_mem_erase hq)) (hb.remove p hcand (hPiff.1 hin)),
    fun hout => hle _ (fun q hq => ?_) (hb.add p hcand (fun hc => hout (hPiff.2 hc)) (by simp))⟩
  rcases Finset.mem_insert.1 hq with rfl | hq
  · exact hp
  · exact hPl q hq


/-- C130.  All variables have the same number `c ≥ 2` of states, hyperparameters are positive, and `estimate_structure` runs tabu
search without limit on the parents, with `tabu_length` and `tabu_rules_duration` unset or at least the number `M` of other
variables, patience unset or at least `M - 1`, and at least `M · 2^M` iterations.  Then in the network returned no single
edge into `n` that is not prior knowledge can be removed, and none added, so as to increase the marginal likelihood of `n`. -/
theorem tabu_estimate_local_optimum (hU : UniformData s.cleanEdges t c) (hc : 2 ≤ c) (hτ : 0 < tau) (hα : 0 < alpha)
    (hK : KnownEdges (sbEnv s.cleanEdges t tau alpha R) known) (hopt : a.optimizer = "tabu") (hmp : a.maxParents = none)
    (htl : ∀ k, a.tabuLength = some k → (s.labels.length : ℤ) - 1 ≤ k)
    (htd : ∀ k, a.tabuDuration = some k → (s.labels.length : ℤ) - 1 ≤ |k|)
    (hpat : ∀ m, a.patience = some m → (s.labels.length : ℤ) - 1 ≤ m + 1)
    (hit : (s.labels.length - 1) * 2 ^ (s.labels.length - 1) ≤ a.iterations)
    (ho : ∀ o, order = some o → o.Perm s.labels)
    (h : estimateStructure (famScoreOn t tau alpha) R ⟨s, complete⟩ a order pick drop = (.ok (es, rep), e'))
    {n p : Label} (hn : n ∈ s.labels) (hp : p ∈ s.labels) (hpn : p ≠ n) (hk : (p, n) ∉ known) :
    let P := (es.filter (fun x => x.2 = n)).image Prod.fst
    ((p, n) ∈ es → likelihood s.cleanEdges t c tau alpha n (P.erase p) ≤ likelihood s.cleanEdges t c tau alpha n P) ∧
    ((p, n) ∉ es → likelihood s.cleanEdges t c tau alpha n (insert p P) ≤ likelihood s.cleanEdges t c tau alpha n P) := by
  refine estimate_local_optimum hU hc hτ hα hK ho h hn hp hpn hk (fun r hr => ?_)
  have hE : SearchReady (sbEnv s.cleanEdges t tau alpha R) := ⟨hU.wf, rfl⟩
  unfold estimateParents at hr
  rw [if_pos hopt] at hr
  cases ht : (sbEnv s.cleanEdges t tau alpha R).tabu n a.maxParents a.iterations a.patience a.tabuLength a.tabuDuration (pick n) (drop n) with
  | error x => rw [ht] at hr; simp at hr
  | ok o =>
    obtain ⟨es', start, steps⟩ := o
    rw [ht] at hr
    simp only [Except.bind_ok', pure, Except.pure, Except.ok.injEq] at hr
    subst hr
    rw [hmp] at ht
    have hcandle : (candidates (sbEnv s.cleanEdges t tau alpha R) known n).card ≤ s.labels.length - 1 := by
      unfold candidates
      refine (Finset.card_le_card Finset.sdiff_subset).trans ?_
      show (s.labels.toFinset.erase n).card ≤ _
      rw [Finset.card_erase_of_mem (List.mem_toFinset.2 hn)]
      exact Nat.sub_le_sub_right (List.toFinset_card_le _) 1
    have hlen : 0 < s.labels.length := List.length_pos_of_mem hn
    have h0 : ((candidates (sbEnv s.cleanEdges t tau alpha R) known n).card : ℤ) ≤ s.labels.length - 1 := by omega
    exact tabu_local_optimum hE hK (famscore_of_parent_set hU.wf rfl t tau alpha R hn) rfl
      (fun k hk => h0.trans (htl k hk)) (fun k hk => h0.trans (htd k hk)) ht (by
        obtain ⟨-, c', -, -, hend⟩ := tabu_walk hE hK (famscore_of_parent_set hU.wf rfl t tau alpha R hn) ht
        by_cases hfull : steps.length = a.iterations
        · right
          refine ⟨rfl, ?_⟩
          rw [hfull]
          exact (Nat.mul_le_mul hcandle (Nat.pow_le_pow_right (by norm_num) hcandle)).trans hit
        · left
          obtain ⟨m, e1, e2⟩ := hend.resolve_left hfull
          refine ⟨m, e1, ?_, ?_⟩
          · have := hpat m e1
            exact h0.trans this
          · exact lt_of_le_of_ne (tabu_limits hE hK ht).1 hfull)

end

/-- The hypotheses hold of the default arguments on a trajectory of two binary variables: the estimate exists (C85), and neither
dropping nor adding `X → Y` makes the trajectory of `Y` more likely. -/
example (pick drop : Label → Nat → Nat) : ∃ es rep e',
    estimateStructure (famScoreOn exT2 1 1) [[true, true], [true, true]] (Estimator.new exS2) defaultArgs none pick drop
      = (.ok (es, rep), e') ∧
    (("X", "Y") ∈ es → likelihood exS2.cleanEdges exT2 2 1 1 "Y" ((((es.filter (fun x => x.2 = "Y")).image Prod.fst)).erase "X") ≤
      likelihood exS2.cleanEdges exT2 2 1 1 "Y" ((es.filter (fun x => x.2 = "Y")).image Prod.fst)) ∧
    (("X", "Y") ∉ es → likelihood exS2.cleanEdges exT2 2 1 1 "Y" (insert "X" ((es.filter (fun x => x.2 = "Y")).image Prod.fst)) ≤
      likelihood exS2.cleanEdges exT2 2 1 1 "Y" ((es.filter (fun x => x.2 = "Y")).image Prod.fst)) := by
  obtain ⟨es, rep, e', h, -⟩ := score_based_returns_partial (a := defaultArgs) (order := none) exU (le_refl 2) one_pos one_pos exU_known
    ⟨by simp [defaultArgs], by simp [defaultArgs], by simp [defaultArgs]⟩
    (by
      intro n hn
      have : n = "X" ∨ n = "Y" := by simpa [exS2] using hn
      rcases this with rfl | rfl
      · exact ⟨"Y", by simp [candidates, sbEnv, exS2, Structure.cleanEdges, parentsIn]⟩
      · exact ⟨"X", by simp [candidates, sbEnv, exS2, Structure.cleanEdges, parentsIn]⟩) (Estimator.new exS2).complete (by simp) pick drop
  refine ⟨es, rep, e', h, ?_⟩
  exact tabu_estimate_local_optimum (p := "X") (n := "Y") exU (le_refl 2) one_pos one_pos exU_known rfl rfl (by simp [defaultArgs])
    (by simp [defaultArgs]) (by simp [defaultArgs]) (by decide) (by simp) h (by decide) (by decide) (by decide) (by simp)

end PyCTBN
