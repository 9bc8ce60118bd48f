import Verif.Lemmas.ScoreEst
import Verif.Props.Search

/-!
# C57 to C63, C83, C84: score-based structure estimation
-/

namespace PyCTBN
open Spec SearchEnv

/-! ## C59: the score -/

/-- C59.  The score of `n` computed from a graph depends only on the parents of `n` in it: whatever happened to the two graphs
before, if `n` has the same parents in both (after the structure's own edges are added), it has the same score. -/
theorem score_depends_on_parents_only {s : Structure} (hc : ClosedStructure s) (t : Trajectory) (tau alpha : ℝ)
    (R : List (List Bool)) {n : Label} (hn : n ∈ s.labels) {g₁ g₂ : NetworkGraph} (h₁ : Reach s g₁) (h₂ : Reach s g₂)
    (hp : ∀ p, ((p, n) ∈ g₁.edges ∨ (p, n) ∈ s.edges) ↔ ((p, n) ∈ g₂.edges ∨ (p, n) ∈ s.edges)) :
    ((sbEnv s t tau alpha R).scoreGraph n g₁).map Prod.fst = ((sbEnv s t tau alpha R).scoreGraph n g₂).map Prod.fst := by
  have key : ∀ g, Reach s g → ∃ g', g.fastInit n = .ok g' ∧
      (∀ p, p ∈ parentsIn g'.edges n ↔ ((p, n) ∈ g.edges ∨ (p, n) ∈ s.edges)) ∧
      ((sbEnv s t tau alpha R).scoreGraph n g).map Prod.fst = scoreOfParents s t tau alpha n (parentsIn g'.edges n) := by
    intro g hg
    obtain ⟨hI, hs⟩ := hg.inv
    obtain ⟨g', d, k1, -, -, -, k5, -⟩ := fastInit_spec hI (n := n) (by rw [hs]; exact hn)
    refine ⟨g', k1, fun p => ?_, ?_⟩
    · rw [mem_parentsIn, reach_mem_edges (Reach.fastInit n hg hn k1), k5, hs, reach_mem_edges hg]
    · have := scoreOf_famScore hc t tau alpha R hn g g' hg k1
      rw [← this]
      unfold scoreGraph
      rw [k1]
      simp only [Except.bind_ok']
      cases (sbEnv s t tau alpha R).score n g' <;> rfl
  obtain ⟨g₁', -, a2, a3⟩ := key g₁ h₁
  obtain ⟨g₂', -, b2, b3⟩ := key g₂ h₂
  rw [a3, b3]
  congr 1
  ext p
  rw [a2, b2, hp]

/-- C59, as the searches use it: the FamScore meets the assumption of C49 and C53. -/
theorem famscore_of_parent_set {s : Structure} (hw : WFStructure s) (he : s.edges = []) (t : Trajectory) (tau alpha : ℝ)
    (R : List (List Bool)) {n : Label} (hn : n ∈ s.labels) :
    ScoreOf (sbEnv s t tau alpha R) n (scoreOfParents s t tau alpha n) :=
  scoreOf_famScore (closed_noEdges hw he) t tau alpha R hn

/-! ## C83: what the score is -/

/-- C83 (partial).  When every parent has one state or as many as the node, the score computed for a graph is the logarithm of the marginal likelihood of
the observed residence times and transitions of `n`, a product over all assignments `us` of its parents.
Missing: other cardinalities, where the statistics are wrong (C17, C18). -/
theorem score_is_log_marginal_partial {s : Structure} {g : NetworkGraph} (hg : Reach s g) {t : Trajectory} (ht : DataOK s t)
    (htimes : ∀ d ∈ t.times, 0 ≤ d) {n : Label} (hn : n ∈ s.labels) {c : Nat} (hcn : s.getStatesNumber n = .ok c) (hc : 2 ≤ c)
    {ps : List Nat} (hps : ps.map Except.ok = (parentsOf g n).map s.getStatesNumber) (hpp : ∀ p ∈ ps, p = 1 ∨ p = c)
    {tau alpha : ℝ} (hτ : 0 < tau) (hα : 0 < alpha) (R : List (List Bool))
    {us : List (List Nat)} (hnd : us.Nodup) (hus : ∀ u, u ∈ us ↔ InRangeAssign ps u) :
    ∃ v g', (sbEnv s t tau alpha R).scoreGraph n g = .ok (v, g') ∧
      Real.exp v = (us.map (fun u => (observed s t n (parentsOf g n) c u).marginal tau alpha c)).prod := by
  obtain ⟨sofc, q, h1, h2⟩ := estimate_cims_ranked hg ht hn hcn (by omega) hps hpp
  obtain ⟨hI, hs⟩ := hg.inv
  obtain ⟨g', d, k1, -, -, -, k5, -⟩ := fastInit_spec hI (n := n) (by rw [hs]; exact hn)
  have hlen : (meshRest ps).length = ps.prod := by rw [meshRest_closed]; simp
  have hmem : ∀ u, u ∈ meshRest ps ↔ InRangeAssign ps u := by
    intro u
    constructor
    · intro hu
      obtain ⟨r, hr⟩ := List.mem_iff_getElem?.1 hu
      exact (meshRest_getElem?.1 hr).1
    · intro hu; exact List.mem_of_getElem? (meshRest_getElem?.2 ⟨hu, rfl⟩)
  have hpnd : (meshRest ps).Nodup := by
    rw [List.nodup_iff_getElem?_ne_getElem?]
    intro i j hij hj heq
    have hji := List.getElem?_eq_getElem hj
    have h1 := (meshRest_getElem?.1 hji).2
    have h2 := (meshRest_getElem?.1 (heq.trans hji)).2
    omega
  have hperm : (meshRest ps).Perm us := by
    rw [List.perm_ext_iff_of_nodup hpnd hnd]
    intro u; rw [hmem, hus]
  have hne : meshRest ps ≠ [] := by
    intro hnil
    rw [hnil, List.length_nil] at hlen
    have : 0 < ps.prod := by
      apply prod_pos_of_pos
      intro p hp'
      rcases hpp p hp' with rfl | rfl <;> omega
    omega
  obtain ⟨v, hv1, hv2⟩ := famscore_is_log_marginal hτ hα hc
    (l := (meshRest ps).map (fun u => (observed s t n (parentsOf g n) c u, q u))) (by simpa using hne) (by
      intro p hp'
      obtain ⟨u, hu, rfl⟩ := List.mem_map.1 hp'
      refine ⟨fun x _ => ?_, fun x hx => ?_⟩
      · unfold observed residence
        apply List.sum_nonneg
        intro d hd
        obtain ⟨r, hr, rfl⟩ := List.mem_map.1 hd
        exact htimes _ (List.of_mem_zip (List.mem_filter.1 hr).1).1
      · simp only [observed, if_true]
        apply Finset.sum_congr rfl
        intro y hy
        rw [if_neg (fun e => (Finset.mem_erase.1 hy).1 e.symm)])
  refine ⟨v, g', ?_, ?_⟩
  · have h3 : computeOn t g' n = .ok sofc := by
      have := estimate_split t g n
      rw [h1, k1] at this
      exact this.symm
    unfold scoreGraph
    rw [k1]
    simp only [Except.bind_ok']
    show (famScoreOn t tau alpha n g' >>= fun s => pure (s, g')) = _
    unfold famScoreOn
    rw [h3]
    simp only [Except.bind_ok', h2, hv1]
    rfl
  · rw [hv2, List.map_map]
    exact (hperm.map _).prod_eq

/-- With uniform data every structure can be scored. -/
theorem uniform_scorable {s : Structure} {t : Trajectory} {c : Nat} (hU : UniformData s t c) (hc : 2 ≤ c)
    {tau alpha : ℝ} (hτ : 0 < tau) (hα : 0 < alpha) (R : List (List Bool)) {n : Label} (hn : n ∈ s.labels) :
    Scorable (sbEnv s t tau alpha R) n := by
  intro g g' hg hf
  have hg : Reach s g := hg
  have hcn : ∀ l ∈ s.labels, s.getStatesNumber l = .ok c := by
    intro l hl
    obtain ⟨w, hw', e⟩ := getStatesNumber_mem hU.wf hl
    rw [e, hU.cards w hw']
  obtain ⟨hI, hs⟩ := hg.inv
  have hps : ((parentsOf g n).map (fun _ => c)).map Except.ok = (parentsOf g n).map s.getStatesNumber := by
    rw [List.map_map]
    apply List.map_congr_left
    intro l hl
    rw [hcn l (hs ▸ mem_parentsOf hl)]
    rfl
  have hall : ∀ p ∈ (parentsOf g n).map (fun _ => c), p = c := by
    intro p hp; obtain ⟨_, _, rfl⟩ := List.mem_map.1 hp; rfl
  have hex : ExactCards c ((parentsOf g n).map (fun _ => c)) := by
    refine ⟨fun p hp => Or.inr (hall p hp), fun p q rest h => ?_⟩
    rw [h] at hall
    rw [hall p (by simp), hall q (by simp)]
  have hen := p_combs_enumeration_partial _ hex.2
  obtain ⟨v, g'', h1, -⟩ := score_is_log_marginal_partial hg hU.data hU.times hn (hcn n hn) hc hps hex.1 hτ hα R
    (us := buildPCombs ((parentsOf g n).map (fun _ => c)))
    (by
      rw [List.nodup_iff_getElem?_ne_getElem?]
      intro i j hij hj heq
      have hji := List.getElem?_eq_getElem hj
      have h1 := (hen.1 j _).1 hji
      have h2 := (hen.1 i _).1 (heq.trans hji)
      omega)
    (by
      intro u
      constructor
      · intro hu
        obtain ⟨r, hr⟩ := List.mem_iff_getElem?.1 hu
        exact ((hen.1 r u).1 hr).1
      · intro hu; exact List.mem_of_getElem? ((hen.1 _ u).2 ⟨hu, rfl⟩))
  unfold scoreGraph at h1
  rw [hf] at h1
  simp only [Except.bind_ok'] at h1
  cases hs : (sbEnv s t tau alpha R).score n g' with
  | error e => rw [hs] at h1; simp at h1
  | ok v' => exact ⟨v', rfl⟩

/-! ## C57, C58: assembling the per-node results -/

section
variable {S : Type} [LinearOrder S] {score : Label → NetworkGraph → Py S} {R : List (List Bool)} {e e' : Estimator} {a : SBArgs}
  {order : Option (List Label)} {pick drop : Label → Nat → Nat} {es : Finset Edge} {rep : Option (ℚ × ℚ)}

/-- What one node's search returns, on the cleaned structure. -/
def nodeResult (score : Label → NetworkGraph → Py S) (R : List (List Bool)) (e : Estimator) (a : SBArgs)
    (pick drop : Label → Nat → Nat) (n : Label) : Py (List Edge) :=
  estimateParents ⟨e.struct.cleanEdges, R, score⟩ a (pick n) (drop n) n

theorem mapM_ok_mem_iff {α β : Type} {f : α → Py β} {l : List α} {bs : List β} (h : l.mapM f = .ok bs) :
    (∀ b, b ∈ bs ↔ ∃ x ∈ l, f x = .ok b) ∧ ∀ x ∈ l, ∃ b, f x = .ok b := by
  induction l generalizing bs with
  | nil => simp only [List.mapM_nil, Except.pure_eq_ok', Except.ok.injEq] at h; subst h; simp
  | cons x l ih =>
    rw [List.mapM_cons] at h
    cases hx : f x with
    | error e => rw [hx] at h; simp at h
    | ok b =>
      rw [hx] at h
      simp only [Except.bind_ok'] at h
      cases hl : l.mapM f with
      | error e => rw [hl] at h; simp at h
      | ok bs' =>
        rw [hl] at h
        simp only [Except.bind_ok', Except.pure_eq_ok', Except.ok.injEq] at h
        subst h
        obtain ⟨i1, i2⟩ := ih hl
        refine ⟨fun b' => ?_, fun y hy => ?_⟩
        · rw [List.mem_cons, i1]
          constructor
          · rintro (rfl | ⟨y, hy, h⟩)
            · exact ⟨x, by simp, hx⟩
            · exact ⟨y, by simp [hy], h⟩
          · rintro ⟨y, hy, h⟩
            rcases List.mem_cons.1 hy with rfl | hy
            · rw [hx] at h; cases h; exact Or.inl rfl
            · exact Or.inr ⟨y, hy, h⟩
        · rcases List.mem_cons.1 hy with rfl | hy
          · exact ⟨b, hx⟩
          · exact i2 y hy

theorem lookup_done {run : Label → Py (List Edge)} {order : List Label} {n : Label} (h : n ∈ order) :
    (order.map (fun m => (m, run m))).lookup n = some (run n) := by
  induction order with
  | nil => cases h
  | cons m order ih =>
    rw [List.map_cons, List.lookup_cons]
    by_cases hm : n = m
    · subst hm; simp
    · have : (n == m) = false := by simpa using hm
      rw [this]
      exact ih ((List.mem_cons.1 h).resolve_left hm)

/-- With all tasks completed, the pool hands back what the sequential loop computes, unless a worker hangs. -/
theorem perNodeParallel_eq {run : Label → Py (List Edge)} {nodes order : List Label} (h : order.Perm nodes) :
    perNodeParallel run nodes order = if ∃ n ∈ nodes, run n = .error .blocked then .error .blocked else perNodeSequential run nodes := by
  unfold perNodeParallel perNodeSequential
  simp only
  have h1 : ((order.map (fun n => (n, run n))).any (fun r => decide (r.2 = .error .blocked))) = true ↔
      ∃ n ∈ nodes, run n = .error .blocked := by
    rw [List.any_map, List.any_eq_true]
    constructor
    · rintro ⟨n, hn, hh⟩; exact ⟨n, h.mem_iff.1 hn, by simpa using hh⟩
    · rintro ⟨n, hn, hh⟩; exact ⟨n, h.mem_iff.2 hn, by simpa using hh⟩
  by_cases hb : ∃ n ∈ nodes, run n = .error .blocked
  · rw [if_pos (h1.2 hb), if_pos hb]
  · rw [if_neg (fun hh => hb (h1.1 hh)), if_neg hb]
    apply mapM_congr'
    intro n hn
    rw [lookup_done (h.mem_iff.2 hn)]

theorem estimate_ok (ho : ∀ o, order = some o → o.Perm e.struct.labels)
    (h : estimateStructure score R e a order pick drop = (.ok (es, rep), e')) :
    ∃ ess, e.struct.labels.mapM (nodeResult score R e a pick drop) = .ok ess ∧ es = ess.flatten.toFinset ∧
      rep = report e.struct.edges.toFinset es ∧ e' = e.update ess.flatten.dedup := by
  unfold estimateStructure at h
  simp only at h
  have hfin : ∀ {r : Py (List (List Edge))}, (match r with
      | .error x => (.error x, { e with struct := e.struct.cleanEdges })
      | .ok ess => (.ok (ess.flatten.toFinset, report e.struct.edges.toFinset ess.flatten.toFinset), e.update ess.flatten.dedup)
        : Py (Finset Edge × Option (ℚ × ℚ)) × Estimator) = (.ok (es, rep), e') →
      ∃ ess, r = .ok ess ∧ es = ess.flatten.toFinset ∧ rep = report e.struct.edges.toFinset es ∧ e' = e.update ess.flatten.dedup := by
    intro r hr
    cases r with
    | error x => simp at hr
    | ok ess =>
      simp only [Prod.mk.injEq, Except.ok.injEq] at hr
      obtain ⟨⟨rfl, rfl⟩, rfl⟩ := hr
      exact ⟨ess, rfl, rfl, rfl, rfl⟩
  cases order with
  | none => exact hfin h
  | some o =>
    obtain ⟨ess, h1, h2⟩ := hfin h
    simp only at h1
    rw [perNodeParallel_eq (nodes := e.struct.cleanEdges.labels) (ho o rfl)] at h1
    split at h1
    · cases h1
    · exact ⟨ess, h1, h2⟩

/-- C57.  `estimate_structure`, sequential or parallel, returns exactly the union of the per-node results, every per-node search
having returned. -/
theorem estimate_is_union (ho : ∀ o, order = some o → o.Perm e.struct.labels)
    (h : estimateStructure score R e a order pick drop = (.ok (es, rep), e')) :
    (∀ n ∈ e.struct.labels, ∃ r, nodeResult score R e a pick drop n = .ok r) ∧
    ∀ x, x ∈ es ↔ ∃ n ∈ e.struct.labels, ∃ r, nodeResult score R e a pick drop n = .ok r ∧ x ∈ r := by
  obtain ⟨ess, h1, rfl, -⟩ := estimate_ok ho h
  obtain ⟨k1, k2⟩ := mapM_ok_mem_iff h1
  refine ⟨k2, fun x => ?_⟩
  rw [List.mem_toFinset, List.mem_flatten]
  constructor
  · rintro ⟨r, hr, hx⟩
    obtain ⟨n, hn, hh⟩ := (k1 r).1 hr
    exact ⟨n, hn, r, hh, hx⟩
  · rintro ⟨n, hn, r, hh, hx⟩
    exact ⟨r, (k1 r).2 ⟨n, hn, hh⟩, hx⟩

theorem nodeResult_spec {known : List Edge} (hw : WFStructure e.struct)
    (hK : KnownEdges (⟨e.struct.cleanEdges, R, score⟩ : SearchEnv S) known) {n : Label} {r : List Edge}
    (h : nodeResult score R e a pick drop n = .ok r) :
    r.Nodup ∧ (∀ x ∈ r, x.2 = n ∧ x.1 ∈ e.struct.labels ∧ x.1 ≠ n) ∧
      (∀ k, a.maxParents = some k → (r.length : ℤ) ≤ max k (parentsIn known n).card) ∧
      ((∀ k, a.maxParents = some k → (e.struct.labels.length : ℤ) - 1 ≤ k) → ∀ p, (p, n) ∈ known → (p, n) ∈ r) := by
  have hE : SearchReady (⟨e.struct.cleanEdges, R, score⟩ : SearchEnv S) := ⟨⟨hw.nodup, hw.idxLen, hw.valLen⟩, rfl⟩
  unfold nodeResult estimateParents at h
  split at h
  · cases ht : SearchEnv.tabu (⟨e.struct.cleanEdges, R, score⟩ : SearchEnv S) n a.maxParents a.iterations a.patience a.tabuLength
        a.tabuDuration (pick n) (drop n) with
    | error x => rw [ht] at h; simp at h
    | ok o =>
      obtain ⟨es, st, steps⟩ := o
      rw [ht] at h
      simp only [Except.bind_ok', Except.pure_eq_ok', Except.ok.injEq] at h
      subst h
      obtain ⟨k1, k2, k3⟩ := tabu_edges_into_node hE hK ht
      exact ⟨k1, k2, k3, fun hbig p hp => tabu_keeps_known_partial hE hK hbig ht p hp⟩
  · cases ht : SearchEnv.hill (⟨e.struct.cleanEdges, R, score⟩ : SearchEnv S) n a.maxParents a.iterations a.patience (pick n) (drop n) with
    | error x => rw [ht] at h; simp at h
    | ok o =>
      obtain ⟨es, log⟩ := o
      rw [ht] at h
      simp only [Except.bind_ok', Except.pure_eq_ok', Except.ok.injEq] at h
      subst h
      obtain ⟨k1, k2⟩ := hill_edges_into_node hE hK ht
      refine ⟨k1, k2, fun k hk => ?_, fun hbig p hp => hill_keeps_known_partial hE hK hbig ht p hp⟩
      rw [hk] at ht
      exact hill_max_parents hE hK ht

/-- C57 (consequences).  Every estimated edge joins two different variables, and every variable has at most
`max(max_parents, number of its known parents)` estimated parents. -/
theorem estimate_well_formed {known : List Edge} (hw : WFStructure e.struct)
    (hK : KnownEdges (⟨e.struct.cleanEdges, R, score⟩ : SearchEnv S) known) (ho : ∀ o, order = some o → o.Perm e.struct.labels)
    (h : estimateStructure score R e a order pick drop = (.ok (es, rep), e')) :
    (∀ x ∈ es, x.1 ∈ e.struct.labels ∧ x.2 ∈ e.struct.labels ∧ x.1 ≠ x.2) ∧
    ∀ k, a.maxParents = some k → ∀ n ∈ e.struct.labels, ((es.filter (fun x => x.2 = n)).card : ℤ) ≤ max k (parentsIn known n).card := by
  obtain ⟨k1, k2⟩ := estimate_is_union ho h
  refine ⟨fun x hx => ?_, fun k hk n hn => ?_⟩
  · obtain ⟨n, hn, r, hr, hxr⟩ := (k2 x).1 hx
    obtain ⟨-, j2, -, -⟩ := nodeResult_spec hw hK hr
    obtain ⟨i1, i2, i3⟩ := j2 x hxr
    exact ⟨i2, i1 ▸ hn, i1 ▸ i3⟩
  · obtain ⟨r, hr⟩ := k1 n hn
    obtain ⟨j1, j2, j3, -⟩ := nodeResult_spec hw hK hr
    have : es.filter (fun x => x.2 = n) = r.toFinset := by
      ext x
      rw [Finset.mem_filter, k2, List.mem_toFinset]
      constructor
      · rintro ⟨⟨m, hm, r', hr', hx⟩, hxn⟩
        obtain ⟨-, i2, -, -⟩ := nodeResult_spec hw hK hr'
        have : m = n := by rw [← (i2 x hx).1, hxn]
        subst this
        rw [hr] at hr'; cases hr'; exact hx
      · intro hx; exact ⟨⟨n, hn, r, hr, hx⟩, (j2 x hx).1⟩
    rw [this, List.toFinset_card_of_nodup j1]
    exact j3 k hk

/-- C84 (partial).  Score-based estimation keeps every known edge when `max_parents` is unset or at least the number of other
variables.  Missing: smaller `max_parents`, where known edges can be dropped (C48, C54). -/
theorem score_based_keeps_known_partial {known : List Edge} (hw : WFStructure e.struct)
    (hK : KnownEdges (⟨e.struct.cleanEdges, R, score⟩ : SearchEnv S) known) (ho : ∀ o, order = some o → o.Perm e.struct.labels)
    (hmp : ∀ k, a.maxParents = some k → (e.struct.labels.length : ℤ) - 1 ≤ k)
    (h : estimateStructure score R e a order pick drop = (.ok (es, rep), e')) : ∀ x ∈ known, x ∈ es := by
  obtain ⟨k1, k2⟩ := estimate_is_union ho h
  rintro ⟨p, n⟩ hx
  have hn : n ∈ e.struct.labels := by
    obtain ⟨i, j, h1, h2, h3, h4⟩ := (removable_matrix_built_iff _ known).1 ⟨_, hK.built⟩ _ hx
    by_contra hne
    unfold Structure.getNodeIndx at h2
    rw [pyIndex_of_not_mem (show (p, n).2 ∉ (⟨e.struct.cleanEdges, R, score⟩ : SearchEnv S).struct.labels from hne)] at h2
    simp at h2
  obtain ⟨r, hr⟩ := k1 n hn
  exact (k2 _).2 ⟨n, hn, r, hr, (nodeResult_spec hw hK hr).2.2.2 hmp p hx⟩

/-- C58.  Given each node's random numbers, parallel estimation with any order of completion gives what sequential estimation
gives, result, report and estimator alike, unless some worker hangs: then it hangs. -/
theorem score_based_parallel_eq {o : List Label} (ho : o.Perm e.struct.labels) :
    (¬ (∃ n ∈ e.struct.labels, nodeResult score R e a pick drop n = .error .blocked) →
      estimateStructure score R e a (some o) pick drop = estimateStructure score R e a none pick drop) ∧
    ((∃ n ∈ e.struct.labels, nodeResult score R e a pick drop n = .error .blocked) →
      (estimateStructure score R e a (some o) pick drop).1 = .error .blocked) := by
  have hp := perNodeParallel_eq (run := fun n => estimateParents (⟨e.struct.cleanEdges, R, score⟩ : SearchEnv S) a (pick n) (drop n) n)
    (nodes := e.struct.cleanEdges.labels) (order := o) ho
  constructor
  · intro hb
    replace hp := hp.trans (if_neg hb)
    unfold estimateStructure
    simp only [hp]
  · intro hb
    replace hp := hp.trans (if_pos hb)
    unfold estimateStructure
    simp only [hp]

/-- C58 (order of the nodes).  If two estimators list the same variables in different orders, and the per-node results agree, the
estimated edges agree. -/
theorem score_based_order_irrelevant {e₂ e₂' : Estimator} {R₂ : List (List Bool)} {order₂ : Option (List Label)} {es₂ : Finset Edge}
    {rep₂ : Option (ℚ × ℚ)}
    (ho : ∀ o, order = some o → o.Perm e.struct.labels) (ho₂ : ∀ o, order₂ = some o → o.Perm e₂.struct.labels)
    (hperm : e.struct.labels.Perm e₂.struct.labels)
    (hsame : ∀ n ∈ e.struct.labels, ∀ r, nodeResult score R e a pick drop n = .ok r →
      ∃ r₂, nodeResult score R₂ e₂ a pick drop n = .ok r₂ ∧ ∀ x, x ∈ r ↔ x ∈ r₂)
    (h : estimateStructure score R e a order pick drop = (.ok (es, rep), e'))
    (h₂ : estimateStructure score R₂ e₂ a order₂ pick drop = (.ok (es₂, rep₂), e₂')) : es = es₂ := by
  obtain ⟨k1, k2⟩ := estimate_is_union ho h
  obtain ⟨j1, j2⟩ := estimate_is_union ho₂ h₂
  ext x
  rw [k2, j2]
  constructor
  · rintro ⟨n, hn, r, hr, hx⟩
    obtain ⟨r₂, hr₂, hxx⟩ := hsame n hn r hr
    exact ⟨n, hperm.mem_iff.1 hn, r₂, hr₂, (hxx x).1 hx⟩
  · rintro ⟨n, hn, r₂, hr₂, hx⟩
    have hn' := hperm.mem_iff.2 hn
    obtain ⟨r, hr⟩ := k1 n hn'
    obtain ⟨r₂', hr₂', hxx⟩ := hsame n hn' r hr
    rw [hr₂] at hr₂'; cases hr₂'
    exact ⟨n, hn', r, hr, (hxx x).2 hx⟩

/-! ## C60: precision and recall -/

/-- C60.  The printed numbers are `|true ∩ est| / |est|` and `|true ∩ est| / |true|`, both between 0 and 1; they are printed iff
neither set is empty. -/
theorem report_exact (T E : Finset Edge) :
    (report T E = none ↔ T = ∅ ∨ E = ∅) ∧
    ∀ p r, report T E = some (p, r) → p = ((T ∩ E).card : ℚ) / E.card ∧ r = ((T ∩ E).card : ℚ) / T.card ∧
      0 ≤ p ∧ p ≤ 1 ∧ 0 ≤ r ∧ r ≤ 1 := by
  have h1 : (T \ E).card + (T ∩ E).card = T.card := by rw [Finset.card_sdiff_add_card_inter]
  have h2 : (E \ T).card + (T ∩ E).card = E.card := by rw [Finset.inter_comm, Finset.card_sdiff_add_card_inter]
  have e1 : ((T.card : ℤ) - ((T \ E).card : ℤ)) = ((T ∩ E).card : ℤ) := by omega
  have e2 : (((T ∩ E).card : ℤ) + ((E \ T).card : ℤ)) = (E.card : ℤ) := by omega
  have e3 : (((T ∩ E).card : ℤ) + ((T \ E).card : ℤ)) = (T.card : ℤ) := by omega
  unfold report
  simp only [e1, e2, e3]
  have z1 : ((E.card : ℤ) = 0) ↔ E = ∅ := by rw [Int.natCast_eq_zero, Finset.card_eq_zero]
  have z2 : ((T.card : ℤ) = 0) ↔ T = ∅ := by rw [Int.natCast_eq_zero, Finset.card_eq_zero]
  constructor
  · by_cases hE : E = ∅
    · simp [hE]
    · by_cases hT : T = ∅
      · simp [hT]
      · rw [if_neg (fun h => hE (z1.1 h)), if_neg (fun h => hT (z2.1 h))]; simp [hE, hT]
  · intro p r h
    by_cases hE : E = ∅
    · simp [hE] at h
    by_cases hT : T = ∅
    · simp [hT] at h
    rw [if_neg (fun h => hE (z1.1 h)), if_neg (fun h => hT (z2.1 h))] at h
    simp only [Option.some.injEq, Prod.mk.injEq] at h
    have c1 : ((T ∩ E).card : ℚ) ≤ E.card := by exact_mod_cast (by omega : (T ∩ E).card ≤ E.card)
    have c2 : ((T ∩ E).card : ℚ) ≤ T.card := by exact_mod_cast (by omega : (T ∩ E).card ≤ T.card)
    have p1 : (0 : ℚ) < E.card := by exact_mod_cast Finset.card_pos.2 (Finset.nonempty_iff_ne_empty.2 hE)
    have p2 : (0 : ℚ) < T.card := by exact_mod_cast Finset.card_pos.2 (Finset.nonempty_iff_ne_empty.2 hT)
    obtain ⟨rfl, rfl⟩ := h
    push_cast
    refine ⟨rfl, rfl, by positivity, ?_, by positivity, ?_⟩
    · rw [div_le_one p1]; exact c1
    · rw [div_le_one p2]; exact c2

/-- C60 (a failing report does not affect the result).  Whenever all per-node searches return, `estimate_structure` returns,
whatever the true edges; and what it prints compares the estimate with the true edges of the structure. -/
theorem estimate_returns_iff_nodes :
    (∃ es rep e', estimateStructure score R e a none pick drop = (.ok (es, rep), e') ∧ rep = report e.struct.edges.toFinset es) ↔
      ∀ n ∈ e.struct.labels, ∃ r, nodeResult score R e a pick drop n = .ok r := by
  constructor
  · rintro ⟨es, rep, e', h, -⟩
    exact (estimate_is_union (order := none) (by intro o h; cases h) h).1
  · intro h
    have : ∀ l : List Label, (∀ n ∈ l, ∃ r, nodeResult score R e a pick drop n = .ok r) →
        ∃ ess, l.mapM (nodeResult score R e a pick drop) = .ok ess := by
      intro l
      induction l with
      | nil => intro _; exact ⟨[], rfl⟩
      | cons x l ih =>
        intro hl
        obtain ⟨r, hr⟩ := hl x (by simp)
        obtain ⟨ess, hess⟩ := ih (fun n hn => hl n (by simp [hn]))
        exact ⟨r :: ess, by rw [List.mapM_cons, hr, hess]; rfl⟩
    obtain ⟨ess, hess⟩ := this _ h
    refine ⟨ess.flatten.toFinset, report e.struct.edges.toFinset ess.flatten.toFinset, e.update ess.flatten.dedup, ?_, rfl⟩
    · unfold estimateStructure perNodeSequential
      simp only
      have : (e.struct.cleanEdges.labels.mapM fun n => estimateParents (⟨e.struct.cleanEdges, R, score⟩ : SearchEnv S) a (pick n) (drop n) n) = .ok ess := hess
      rw [this]

end

/-! ## C85: estimation returns -/

/-- Arguments with which neither search can hang or raise (C51, C56): the defaults are among them. -/
structure SaneArgs (a : SBArgs) : Prop where
  maxParents : ∀ k, a.maxParents = some k → 1 ≤ k
  tabuLength : ∀ k, a.tabuLength = some k → 1 ≤ k
  tabuDuration : ∀ k, a.tabuDuration = some k → k ≠ 0

/-- C85 (partial).  On well-formed data whose variables all have `c ≥ 2` states, with positive hyperparameters, sane arguments and
known edges that leave every variable a candidate parent, score-based estimation returns: for every random choice, with any
optimizer, sequentially or with any completion order of the workers.  Missing: cardinalities that differ (C17), and
the configurations excluded in C51 and C56. -/
theorem score_based_returns_partial {s : Structure} {t : Trajectory} {c : Nat} (hU : UniformData s.cleanEdges t c) (hc : 2 ≤ c)
    {tau alpha : ℝ} (hτ : 0 < tau) (hα : 0 < alpha) {R : List (List Bool)} {known : List Edge}
    (hK : KnownEdges (sbEnv s.cleanEdges t tau alpha R) known) {a : SBArgs} (ha : SaneArgs a)
    (hcand : ∀ n ∈ s.labels, (candidates (sbEnv s.cleanEdges t tau alpha R) known n).Nonempty)
    (complete : DiGraph) {order : Option (List Label)} (ho : ∀ o, order = some o → o.Perm s.labels) (pick drop : Label → Nat → Nat) :
    ∃ es rep e', estimateStructure (famScoreOn t tau alpha) R ⟨s, complete⟩ a order pick drop = (.ok (es, rep), e') ∧
      rep = report s.edges.toFinset es := by
  have hE : SearchReady (sbEnv s.cleanEdges t tau alpha R) := ⟨hU.wf, rfl⟩
  have key : ∀ n ∈ s.labels, ∃ r, nodeResult (famScoreOn t tau alpha) R ⟨s, complete⟩ a pick drop n = .ok r := by
    intro n hn
    have hs := uniform_scorable hU hc hτ hα R (n := n) hn
    unfold nodeResult estimateParents
    split
    · obtain ⟨es, st, steps, h⟩ := tabu_never_blocks_partial (iterations := a.iterations) (patience := a.patience) (pick := pick n)
        (drop := drop n) hE hK hn hs ha.maxParents (hcand n hn) ha.tabuLength ha.tabuDuration
      refine ⟨es, ?_⟩
      unfold sbEnv at h
      simp only [h]; rfl
    · obtain ⟨es, log, h⟩ := hill_returns_partial (iterations := a.iterations) (patience := a.patience) (pick := pick n)
        (drop := drop n) hE hK hn hs ha.maxParents (hcand n hn)
      refine ⟨es, ?_⟩
      unfold sbEnv at h
      simp only [h]; rfl
  obtain ⟨es, rep, e', h, hr⟩ := (estimate_returns_iff_nodes (e := ⟨s, complete⟩)).2 key
  refine ⟨es, rep, e', ?_, hr⟩
  cases order with
  | none => exact h
  | some o =>
    rw [← h]
    apply (score_based_parallel_eq (e := ⟨s, complete⟩) (ho o rfl)).1
    rintro ⟨n, hn, hb⟩
    obtain ⟨r, hr⟩ := key n hn
    rw [hr] at hb
    cases hb

/-! ## Concrete cases -/

theorem exU : UniformData exS2.cleanEdges exT2 2 where
  wf := ⟨by decide, rfl, rfl⟩
  data := dataOK_of_check _ _ ⟨by decide, rfl, rfl⟩ rfl rfl (by decide) (by decide) (by decide)
  cards := by decide
  times := by decide

theorem exU_known : KnownEdges (sbEnv exS2.cleanEdges exT2 1 1 [[true, true], [true, true]]) [] := ⟨by decide, by rfl, by simp⟩

/-- The default arguments of `estimate_structure`. -/
def defaultArgs : SBArgs := ⟨none, 40, none, none, none, "tabu"⟩

example : SaneArgs defaultArgs := ⟨by simp [defaultArgs], by simp [defaultArgs], by simp [defaultArgs]⟩

/-- The hypotheses of `score_based_returns_partial` hold of a trajectory of two binary variables with a true edge. -/
example (pick drop : Label → Nat → Nat) : ∃ es rep e',
    estimateStructure (famScoreOn exT2 1 1) [[true, true], [true, true]] (Estimator.new exS2) defaultArgs (some ["Y", "X"]) pick drop
      = (.ok (es, rep), e') ∧ rep = report exS2.edges.toFinset es :=
  score_based_returns_partial exU (le_refl 2) one_pos one_pos exU_known ⟨by simp [defaultArgs], by simp [defaultArgs], by simp [defaultArgs]⟩
    (by
      intro n hn
      have : n = "X" ∨ n = "Y" := by simpa [exS2] using hn
      rcases this with rfl | rfl
      · exact ⟨"Y", by simp [candidates, sbEnv, exS2, Structure.cleanEdges, parentsIn]⟩
      · exact ⟨"X", by simp [candidates, sbEnv, exS2, Structure.cleanEdges, parentsIn]⟩) _
    (by rintro o h; cases h; exact List.Perm.swap _ _ _) pick drop

/-- A known edge and a report that is not empty: one of two estimated edges is true, both true edges but one are found. -/
example : report {("X", "Y"), ("Y", "Z")} {("X", "Y"), ("Z", "X")} = some (1/2, 1/2) := by decide +kernel

end PyCTBN
