import Verif.Spec.ScoreEst
import Verif.Lemmas.SearchLoop
import Verif.Props.FamScore
import Verif.Props.Params

namespace PyCTBN
open Spec SearchEnv

theorem mem_parentsIn {es : List Edge} {n p : Label} : p ∈ parentsIn es n ↔ (p, n) ∈ es := by
  simp only [parentsIn, List.mem_toFinset, List.mem_map, List.mem_filter, decide_eq_true_eq]
  constructor
  · rintro ⟨⟨a, b⟩, ⟨h1, h2⟩, h3⟩; simp only at h2 h3; rw [← h2, ← h3]; exact h1
  · intro hp; exact ⟨_, ⟨hp, rfl⟩, rfl⟩

theorem reach_mem_edges {s : Structure} {g : NetworkGraph} (h : Reach s g) (e : Edge) : e ∈ g.edges ↔ e ∈ g.graph.edges := by
  obtain ⟨hI, _⟩ := h.inv
  unfold NetworkGraph.edges
  exact CBEnv.mem_edgesView (fun e he => (hI.endpoints e he).1)

theorem parentsOf_eq {s : Structure} {g : NetworkGraph} (h : Reach s g) (n : Label) :
    parentsOf g n = s.labels.filter (fun l => decide ((l, n) ∈ g.graph.edges ∨ (l, n) ∈ s.edges)) := by
  obtain ⟨hI, hs⟩ := h.inv
  unfold parentsOf
  rw [hs]
  congr 1
  funext l
  rw [Bool.decide_or]
  rfl

/-- The score on an initialised graph. -/
theorem famScoreOn_eq {s : Structure} {g g' : NetworkGraph} (h : Reach s g) {n : Label} (hn : n ∈ s.labels)
    (hf : g.fastInit n = .ok g') (t : Trajectory) (tau alpha : ℝ) :
    famScoreOn t tau alpha n g' = (estFrom s s.total t n (s.labels.filter (fun l => decide (l ∈ parentsIn g'.edges n)))) >>=
      fun c => FamScore.getFamScore c.cims tau alpha := by
  have h1 : computeOn t g' n = estFrom s s.total t n (parentsOf g n) := by
    rw [← estimate_eq_estFrom h hn t, estimate_split, hf]; rfl
  unfold famScoreOn
  rw [h1]
  congr 2
  rw [parentsOf_eq h]
  obtain ⟨hI, hs⟩ := h.inv
  obtain ⟨g2, d, k1, -, -, -, k5, -⟩ := fastInit_spec hI (n := n) (by rw [hs]; exact hn)
  rw [hf] at k1; cases k1
  congr 1
  funext l
  have h' : Reach s g' := Reach.fastInit n h hn hf
  rw [decide_eq_decide, mem_parentsIn, reach_mem_edges h', k5, hs]

theorem closed_noEdges {s : Structure} (hw : WFStructure s) (he : s.edges = []) : ClosedStructure s :=
  ⟨hw, by intro e h; rw [he] at h; cases h⟩

/-- The score is a function of the parent set. -/
theorem scoreOf_famScore {s : Structure} (hc : ClosedStructure s) (t : Trajectory) (tau alpha : ℝ) (R : List (List Bool)) {n : Label}
    (hn : n ∈ s.labels) : ScoreOf (sbEnv s t tau alpha R) n (scoreOfParents s t tau alpha n) := by
  intro g g' hg hf
  have hg : Reach s g := hg
  show famScoreOn t tau alpha n g' = _
  rw [famScoreOn_eq hg hn hf]
  unfold scoreOfParents
  set K := parentsIn g'.edges n with hK
  set h0 := (NetworkGraph.new s).addEdges ((s.labels.filter (fun l => decide (l ∈ K))).map (fun l => (l, n))) with hh0
  have hr0 : Reach s h0 := Reach.addEdges _ (.new hc) (by
    intro e he
    obtain ⟨l, hl, rfl⟩ := List.mem_map.1 he
    exact ⟨(List.mem_filter.1 hl).1, hn⟩)
  obtain ⟨hI, hs⟩ := hr0.inv
  obtain ⟨g2, d, k1, -, -, -, k5, -⟩ := fastInit_spec hI (n := n) (by rw [hs]; exact hn)
  rw [k1]
  simp only [Except.bind_ok']
  rw [famScoreOn_eq hr0 hn k1]
  congr 2
  rw [List.filter_congr]
  intro l hl
  rw [decide_eq_decide, mem_parentsIn (es := g2.edges), reach_mem_edges (Reach.fastInit n hr0 hn k1), k5, hs]
  have hnew : ∀ e, e ∉ (NetworkGraph.new s).graph.edges := fun e => List.not_mem_nil
  have hm : (l, n) ∈ h0.graph.edges ↔ (l, n) ∈ (NetworkGraph.new s).graph.edges ∨
      (l, n) ∈ ((s.labels.filter (fun l => decide (l ∈ K))).map (fun l => (l, n))) := DiGraph.mem_addEdgesFrom
  rw [hm]
  simp only [hnew, false_or, List.mem_map, List.mem_filter, decide_eq_true_eq]
  constructor
  · intro h; exact Or.inl ⟨l, ⟨hl, h⟩, rfl⟩
  · rintro (⟨l', ⟨_, h2⟩, h3⟩ | h)
    · cases h3; exact h2
    · rw [hK, mem_parentsIn, reach_mem_edges (Reach.fastInit n hg hn hf)]
      obtain ⟨hI', hs'⟩ := hg.inv
      obtain ⟨g3, d', j1, -, -, -, j5, -⟩ := fastInit_spec hI' (n := n) (by rw [hs']; exact hn)
      rw [hf] at j1; cases j1
      rw [j5, hs']; exact Or.inr h

theorem sum_range_skip {f : Nat → Nat} (c x : Nat) :
    ((List.range c).map (fun y => if x = y then 0 else f y)).sum = ∑ z ∈ (Finset.range c).erase x, f z := by
  have h1 : ((List.range c).map (fun y => if x = y then 0 else f y)).sum = ∑ y ∈ Finset.range c, if x = y then 0 else f y := by
    rw [Finset.sum_range, ← List.sum_ofFn]
    congr 1
    rw [List.ofFn_eq_map, ← List.map_coe_finRange_eq_range, List.map_map]
    rfl
  rw [h1, ← Finset.filter_ne', Finset.sum_filter]
  apply Finset.sum_congr rfl
  intro y _
  by_cases h : x = y
  · subst h; simp
  · simp [h, Ne.symm h]

/-- Estimated statistics as observed ones, in the order of the CIMs. -/
theorem estimate_cims_ranked {s : Structure} {g : NetworkGraph} (hg : Reach s g) {t : Trajectory} (ht : DataOK s t)
    {n : Label} (hn : n ∈ s.labels) {c : Nat} (hcn : s.getStatesNumber n = .ok c) (hc : 0 < c) {ps : List Nat}
    (hps : ps.map Except.ok = (parentsOf g n).map s.getStatesNumber) (hpp : ∀ p ∈ ps, p = 1 ∨ p = c) :
    ∃ (sofc : SetOfCims) (q : List Nat → List (List ℚ)), ParamsEst.estimate t g n = .ok sofc ∧
      sofc.cims = cimsFor c ((meshRest ps).map (fun u => (observed s t n (parentsOf g n) c u, q u))) := by
  obtain ⟨c', i, ps', is, e1, e2, e3, e4, e5⟩ := estimate_unfold hg hn
  obtain ⟨hI, hs⟩ := hg.inv
  have hw : WFStructure s := hs ▸ hI.cs.toWFStructure
  have hls : ∀ x ∈ parentsOf g n, x ∈ s.labels := fun x hx => hs ▸ mem_parentsOf hx
  rw [hcn] at e1; cases e1
  have : ps' = ps := (List.map_injective_iff.2 (fun _ _ h => Except.ok.inj h)) (e3.trans hps.symm)
  subst this
  have hlen : (meshRest ps').length = ps'.prod := by rw [meshRest_closed]; simp
  refine ⟨_, fun u => cimCoefficients ((List.range c).map (fun x => residence s t n (parentsOf g n) x u))
    ((List.range c).map (fun x => (List.range c).map (fun y => (observed s t n (parentsOf g n) c u).count x y))),
    by rw [e5 t, resTime_exact hw ht hn hls hcn e2 hps e4 hc hpp,
    transitions_exact hw ht hn hls hcn e2 hps e4 hc hpp]; rfl, ?_⟩
  apply List.ext_getElem?
  intro r
  unfold cimsFor
  rw [List.map_map, List.getElem?_map, List.getElem?_zipWith, List.getElem?_map, List.getElem?_map]
  by_cases hlt : r < ps'.prod
  · rw [List.getElem?_range hlt]
    have hlt' : r < (meshRest ps').length := by rw [hlen]; exact hlt
    have hget := List.getElem?_eq_getElem hlt'
    obtain ⟨h1, h2⟩ := meshRest_getElem?.1 hget
    rw [hget]
    generalize (meshRest ps')[r] = u at h1 h2
    subst h2
    simp only [Option.map_some, Function.comp, digits_rank h1, Option.some.injEq]
    unfold Cim.build Stats.toCim observed
    have hsum : ∀ x, x < c → ∑ z ∈ (Finset.range c).erase x, transitions s t n (parentsOf g n) x z u =
        ((List.range c).map (fun y => if x = y then 0 else transitions s t n (parentsOf g n) x y u)).sum := by
      intro x hx
      rw [sum_range_skip c x]
    have hrow : (List.range c).map (fun x => (List.range c).map (fun y => if x = y then
        ((List.range c).map (fun y => if x = y then 0 else transitions s t n (parentsOf g n) x y u)).sum
        else transitions s t n (parentsOf g n) x y u)) =
        (List.range c).map (fun x => (List.range c).map (fun y => if x = y then
          ∑ z ∈ (Finset.range c).erase x, transitions s t n (parentsOf g n) x z u
          else transitions s t n (parentsOf g n) x y u)) := by
      apply List.map_congr_left
      intro x hx
      rw [hsum x (List.mem_range.1 hx)]
    rw [hrow]
  · have h1 : (List.range ps'.prod)[r]? = none := by simpa using hlt
    have h2 : (meshRest ps')[r]? = none := by rw [List.getElem?_eq_none_iff, hlen]; omega
    rw [h1, h2]; rfl

/-- Estimated statistics as observed ones, in the order of the parent table. -/
theorem estimate_cims_observed {s : Structure} {g : NetworkGraph} (hg : Reach s g) {t : Trajectory} (ht : DataOK s t)
    {n : Label} (hn : n ∈ s.labels) {c : Nat} (hcn : s.getStatesNumber n = .ok c) (hc : 0 < c) {ps : List Nat}
    (hps : ps.map Except.ok = (parentsOf g n).map s.getStatesNumber) (hex : ExactCards c ps) :
    ∃ (sofc : SetOfCims) (q : List Nat → List (List ℚ)), ParamsEst.estimate t g n = .ok sofc ∧
      sofc.cims = cimsFor c ((buildPCombs ps).map (fun u => (observed s t n (parentsOf g n) c u, q u))) := by
  rw [buildPCombs_closed, swap_of_exact (c := c) hex.2]
  exact estimate_cims_ranked hg ht hn hcn hc hps hex.1

end PyCTBN
