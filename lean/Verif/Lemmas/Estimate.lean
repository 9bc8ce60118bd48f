import Verif.Lemmas.Radix

/-! From graphs to the estimation procedure: one closed form for `ParamsEst.estimate`. -/

namespace PyCTBN
open Spec

theorem GInv.removeNode {g g' : NetworkGraph} (h : GInv g) {x : Label} (hr : g.removeNode x = .ok g') : GInv g' := by
  unfold NetworkGraph.removeNode DiGraph.removeNode at hr
  by_cases hx : g.graph.hasNode x = true
  · rw [if_pos hx] at hr
    have hxl : x ∈ g.struct.labels := h.keysSub x (DiGraph.hasNode_iff.1 hx)
    have hrm := Structure.removeNode_of_mem h.cs.toWFStructure hxl
    rw [hrm] at hr
    simp only [Except.bind_ok', Except.pure_eq_ok', Except.ok.injEq] at hr
    have hwf := wf_removeNode h.cs.toWFStructure hrm
    have hmem : ∀ l, l ∈ g.struct.labels.eraseIdx (g.struct.labels.idxOf x) ↔ l ≠ x ∧ l ∈ g.struct.labels := by
      intro l; rw [eraseIdx_idxOf, h.cs.nodup.mem_erase_iff]
    subst hr
    refine ⟨⟨hwf, ?_⟩, ?_, ?_, ?_, ?_, ?_⟩
    · intro e he
      simp only [List.mem_filter, Bool.and_eq_true, bne_iff_ne] at he
      have := h.cs.closed e he.1
      exact ⟨(hmem _).2 ⟨he.2.1, this.1⟩, (hmem _).2 ⟨he.2.2, this.2⟩⟩
    · intro e he
      simp only [List.mem_filter, Bool.and_eq_true, bne_iff_ne] at he
      have := h.edgesClosed e he.1
      exact ⟨(hmem _).2 ⟨he.2.1, this.1⟩, (hmem _).2 ⟨he.2.2, this.2⟩⟩
    · exact h.edgesNodup.filter _
    · have := h.keysNodup
      unfold DiGraph.keys at this ⊢
      exact this.sublist (List.Sublist.map _ List.filter_sublist)
    · intro l hl
      simp only [DiGraph.keys, List.mem_map, List.mem_filter, bne_iff_ne] at hl
      obtain ⟨p, ⟨hp1, hp2⟩, rfl⟩ := hl
      exact (hmem _).2 ⟨hp2, h.keysSub _ (List.mem_map_of_mem hp1)⟩
    · intro e he
      simp only [List.mem_filter, Bool.and_eq_true, bne_iff_ne] at he
      have := h.endpoints e he.1
      have key : ∀ l, l ≠ x → l ∈ g.graph.keys →
          l ∈ DiGraph.keys ⟨g.graph.nodes.filter (fun p => p.1 != x), g.graph.edges.filter (fun e => e.1 != x && e.2 != x)⟩ := by
        intro l hlx hl
        obtain ⟨p, hp, rfl⟩ := List.mem_map.1 hl
        exact List.mem_map.2 ⟨p, List.mem_filter.2 ⟨hp, by simpa using hlx⟩, rfl⟩
      exact ⟨key _ he.2.1 this.1, key _ he.2.2 this.2⟩
  · rw [if_neg hx] at hr; cases hr

theorem GInv.fastInit {g g' : NetworkGraph} (h : GInv g) {n : Label} (hn : n ∈ g.struct.labels)
    (hf : g.fastInit n = .ok g') : GInv g' ∧ g'.struct = g.struct := by
  obtain ⟨g'', d, h1, h2, h3, _⟩ := fastInit_spec h hn
  rw [h1] at hf; cases hf; exact ⟨h2, h3⟩

theorem Spec.Reach.inv {s : Structure} {g : NetworkGraph} (h : Reach s g) : GInv g ∧ g.struct = s := by
  induction h with
  | new hs => exact ⟨GInv.new hs, rfl⟩
  | addEdges es _ hes ih => exact ⟨ih.1.addEdges (by rw [ih.2]; exact hes), ih.2⟩
  | removeEdges es _ ih => exact ⟨ih.1.removeEdges es, ih.2⟩
  | fastInit n _ hn hf ih =>
    obtain ⟨a, b⟩ := ih.1.fastInit (by rw [ih.2]; exact hn) hf
    exact ⟨a, b.trans ih.2⟩
  | removeNode x _ hf ih => exact ⟨ih.1.removeNode hf, rfl⟩

/-- The estimation of a node, with the graph machinery evaluated. -/
theorem estimate_unfold {s : Structure} {g : NetworkGraph} (h : Reach s g) {n : Label} (hn : n ∈ s.labels) :
    ∃ (c i : Nat) (ps is : List Nat), s.getStatesNumber n = .ok c ∧ s.getNodeIndx n = .ok i ∧
      ps.map Except.ok = (parentsOf g n).map s.getStatesNumber ∧ is.map Except.ok = (parentsOf g n).map s.getNodeIndx ∧
      ∀ t : Trajectory, ParamsEst.estimate t g n =
        (computeStateResTime t.times t.trajectory (i :: is) (buildTimeScalarIndexing c ps) ps.prod c >>= fun T =>
          computeStateTransitions i t.rows ((i + s.total) :: i :: is) (buildTransitionScalarIndexing c ps) ps.prod c >>= fun M =>
            Except.ok ⟨n, ps, c, buildPCombs ps, false, List.zipWith Cim.build T M⟩) := by
  obtain ⟨hI, hs⟩ := h.inv
  subst hs
  obtain ⟨g', d, k1, k2, k3, k4, k5, k6, k7, k8, k9⟩ := fastInit_spec hI hn
  obtain ⟨c, i, e1, e2, e3, e4, e5, e6, e7⟩ := k9.nodeData
  have hpar : d.info.parents = parentsOf g n := by
    rw [k8, parentsOf]
    apply List.filter_congr; intro l _
    simp [NetworkGraph.hasEdge, DiGraph.hasEdge]
  refine ⟨c, i, d.info.vals, d.info.indxs, e1, e2, hpar ▸ k9.vals, hpar ▸ k9.indxs, ?_⟩
  intro t
  have hst : g'.getStatesNumber n = .ok c := (k7 n hn).2.trans e1
  have hix : g'.getNodeIndx n = .ok i := (k7 n hn).1.trans e2
  have hcomb : (SetOfCims.new n d.info.vals c d.pCombs).combsNumber = d.info.vals.prod := by
    unfold SetOfCims.combsNumber SetOfCims.new
    by_cases hv : d.info.vals = [] <;> simp [hv]
  have hfi : (ParamsEst.new t g').fastInit n
      = .ok ⟨t, g', some (SetOfCims.new n d.info.vals c d.pCombs)⟩ := by
    simp only [ParamsEst.fastInit, ParamsEst.new, k4, hst]; rfl
  unfold ParamsEst.estimate
  rw [k1]
  simp only [Except.bind_ok', hfi]
  have hcp : (⟨t, g', some (SetOfCims.new n d.info.vals c d.pCombs)⟩ : ParamsEst).computeParameters n =
      (computeStateResTime t.times t.trajectory d.timeFilter d.timeIdx d.info.vals.prod c >>= fun T =>
        computeStateTransitions i t.rows d.transFilter d.transIdx d.info.vals.prod c >>= fun M =>
          Except.ok (⟨t, g', some ((SetOfCims.new n d.info.vals c d.pCombs).buildCims T M)⟩,
            (SetOfCims.new n d.info.vals c d.pCombs).buildCims T M)) := by
    simp only [ParamsEst.computeParameters, hix, Except.bind_ok', k4, hcomb]
    rfl
  rw [hcp, e3, e4, e5, e6, e7]
  simp only [buildTimeColumnsFiltering, buildTransitionFiltering]
  cases computeStateResTime t.times t.trajectory (i :: d.info.indxs) (buildTimeScalarIndexing c d.info.vals)
      d.info.vals.prod c with
  | error e => rfl
  | ok T =>
    simp only [Except.bind_ok']
    cases computeStateTransitions i t.rows ((i + g.struct.total) :: i :: d.info.indxs)
      (buildTransitionScalarIndexing c d.info.vals) d.info.vals.prod c with
    | error e => rfl
    | ok M => simp [SetOfCims.buildCims, SetOfCims.new]

end PyCTBN

namespace PyCTBN
open Spec

theorem mapM_ok_map {α β} {f : α → Py β} {g : α → β} {l : List α} (h : ∀ a ∈ l, f a = .ok (g a)) :
    l.mapM f = .ok (l.map g) := by
  induction l with
  | nil => rfl
  | cons a l ih =>
    rw [List.mapM_cons, h a (by simp), ih (fun x hx => h x (by simp [hx]))]; rfl

theorem zip_map_filter_fst {α β} (l : List α) (f : α → β) (p : β → Bool) :
    ((l.zip (l.map f)).filter (fun q => p q.2)).map Prod.fst = l.filter (fun a => p (f a)) := by
  induction l with
  | nil => rfl
  | cons a l ih =>
    simp only [List.map_cons, List.zip_cons_cons, List.filter_cons]
    by_cases h : p (f a) = true
    · simp [h, ih]
    · simp [h, ih]

theorem zip_map_swap {α β γ} (l : List α) (m : List β) (f : α → γ) :
    (l.map f).zip m = (m.zip l).map (fun p => (f p.2, p.1)) := by
  induction l generalizing m with
  | nil => cases m <;> rfl
  | cons a l ih =>
    cases m with
    | nil => rfl
    | cons b m => simp [ih]

/-- Numeric state of a variable in a row. -/
def natState (s : Structure) (row : List ℤ) (l : Label) : Nat := ((stateOf s row l).getD 0).toNat
/-- Numeric next state of a variable in a row. -/
def natNext (s : Structure) (row : List ℤ) (l : Label) : Nat := ((nextOf s row l).getD 0).toNat

theorem getStatesNumber_mem {s : Structure} (h : WFStructure s) {l : Label} (hl : l ∈ s.labels) :
    ∃ v ∈ s.vals, s.getStatesNumber l = .ok v := lookupPos_mem hl h.valLen
theorem getNodeIndx_mem {s : Structure} (h : WFStructure s) {l : Label} (hl : l ∈ s.labels) :
    ∃ v ∈ s.indexes, s.getNodeIndx l = .ok v := lookupPos_mem hl h.idxLen

theorem natState_spec {s : Structure} {t : Trajectory} (hw : WFStructure s) (ht : DataOK s t) {r : List ℤ} (hr : r ∈ t.rows)
    {l : Label} (hl : l ∈ s.labels) {v : Nat} (hv : s.getStatesNumber l = .ok v) :
    stateOf s r l = some ((natState s r l : Nat) : ℤ) ∧ natState s r l < v := by
  obtain ⟨x, h1, h2⟩ := ht.cur r hr l hl v hv
  have : natState s r l = x := by simp [natState, h1]
  rw [this]; exact ⟨h1, h2⟩

theorem stateOf_eq {s : Structure} {l : Label} {i : Nat} (hi : s.getNodeIndx l = .ok i) (row : List ℤ) :
    stateOf s row l = row[i]? := by simp [stateOf, hi]
theorem nextOf_eq {s : Structure} {l : Label} {i : Nat} (hi : s.getNodeIndx l = .ok i) (row : List ℤ) :
    nextOf s row l = row[s.total + i]? := by simp [nextOf, hi]

theorem map_cols_eq_states {s : Structure} {ls : List Label} {is : List Nat} (h : is.map Except.ok = ls.map s.getNodeIndx)
    (row : List ℤ) : is.map (fun i => row[i]?) = ls.map (stateOf s row) := by
  induction ls generalizing is with
  | nil => simp at h; subst h; rfl
  | cons l ls ih =>
    cases is with
    | nil => simp at h
    | cons i is =>
      simp only [List.map_cons, List.cons.injEq] at h ⊢
      exact ⟨(stateOf_eq h.1.symm row).symm, ih h.2⟩

theorem states_eq_nat {s : Structure} {t : Trajectory} (hw : WFStructure s) (ht : DataOK s t) {r : List ℤ} (hr : r ∈ t.rows)
    {ls : List Label} (hls : ∀ l ∈ ls, l ∈ s.labels) :
    ls.map (stateOf s r) = (ls.map (natState s r)).map (fun (v : Nat) => some (v : ℤ)) := by
  rw [List.map_map]
  apply List.map_congr_left
  intro l hl
  obtain ⟨v, _, hv⟩ := getStatesNumber_mem hw (hls l hl)
  exact (natState_spec hw ht hr (hls l hl) hv).1

theorem inRange_states {s : Structure} {t : Trajectory} (hw : WFStructure s) (ht : DataOK s t) {r : List ℤ} (hr : r ∈ t.rows)
    {ls : List Label} {ps : List Nat} (hls : ∀ l ∈ ls, l ∈ s.labels) (hps : ps.map Except.ok = ls.map s.getStatesNumber) :
    InRangeAssign ps (ls.map (natState s r)) := by
  unfold InRangeAssign
  induction ls generalizing ps with
  | nil => simp at hps; subst hps; exact List.Forall₂.nil
  | cons l ls ih =>
    cases ps with
    | nil => simp at hps
    | cons p ps =>
      simp only [List.map_cons, List.cons.injEq] at hps ⊢
      exact List.Forall₂.cons (natState_spec hw ht hr (hls l (by simp)) hps.1.symm).2
        (ih (fun l hl => hls l (by simp [hl])) hps.2)

theorem rowMatches_iff {s : Structure} {t : Trajectory} (hw : WFStructure s) (ht : DataOK s t) {r : List ℤ} (hr : r ∈ t.rows)
    {n : Label} (hn : n ∈ s.labels) {ls : List Label} (hls : ∀ l ∈ ls, l ∈ s.labels) (x : Nat) (u : List Nat) :
    rowMatches s n ls x u r = true ↔ natState s r n = x ∧ ls.map (natState s r) = u := by
  obtain ⟨v, _, hv⟩ := getStatesNumber_mem hw hn
  unfold rowMatches
  rw [(natState_spec hw ht hr hn hv).1, states_eq_nat hw ht hr hls]
  simp only [Bool.and_eq_true, decide_eq_true_eq, Option.some.injEq, Nat.cast_inj]
  constructor
  · rintro ⟨h1, h2⟩
    refine ⟨h1, ?_⟩
    exact (List.map_injective_iff.2 (fun (a b : Nat) (h : some (a : ℤ) = some (b : ℤ)) => by simpa using h)) h2
  · rintro ⟨h1, h2⟩; exact ⟨h1, by rw [h2]⟩

theorem mem_parentsOf {g : NetworkGraph} {n l : Label} (h : l ∈ parentsOf g n) : l ∈ g.struct.labels :=
  (List.mem_filter.1 h).1

section
variable {s : Structure} {t : Trajectory} {n : Label} {ls : List Label} {c i : Nat} {ps is : List Nat}

/-- columns selected for residence times -/
theorem select_time (hw : WFStructure s) (ht : DataOK s t) (hn : n ∈ s.labels) (hls : ∀ l ∈ ls, l ∈ s.labels)
    (hc : s.getStatesNumber n = .ok c) (hi : s.getNodeIndx n = .ok i)
    (his : is.map Except.ok = ls.map s.getNodeIndx) {r : List ℤ} (hr : r ∈ t.rows) :
    selectCols (r.take (t.origCols - 1)) (i :: is)
      = .ok ((natState s r n :: ls.map (natState s r)).map (fun (v : Nat) => (v : ℤ))) := by
  have hlt : ∀ l ∈ s.labels, ∀ j, s.getNodeIndx l = .ok j → j < s.total := by
    intro l hl j hj
    obtain ⟨j', hj', e⟩ := getNodeIndx_mem hw hl
    rw [hj] at e; cases e
    exact ht.idx_lt j hj'
  have htake : ∀ l ∈ s.labels, stateOf s (r.take (t.origCols - 1)) l = stateOf s r l := by
    intro l hl
    obtain ⟨j, _, e⟩ := getNodeIndx_mem hw hl
    rw [stateOf_eq e, stateOf_eq e, ht.origCols, Nat.add_sub_cancel]
    exact List.getElem?_take_of_lt (hlt l hl j e)
  rw [selectCols_ok_iff]
  have h1 := map_cols_eq_states (s := s) (ls := n :: ls) (is := i :: is) (by simp [hi, his]) (r.take (t.origCols - 1))
  rw [h1]
  have h2 : (n :: ls).map (stateOf s (r.take (t.origCols - 1))) = (n :: ls).map (stateOf s r) := by
    apply List.map_congr_left
    intro l hl
    rcases List.mem_cons.1 hl with rfl | hl
    · exact htake _ hn
    · exact htake _ (hls l hl)
  rw [h2, states_eq_nat hw ht hr (fun l hl => by
    rcases List.mem_cons.1 hl with rfl | hl
    · exact hn
    · exact hls l hl)]
  simp [List.map_map, Function.comp_def]

/-- columns selected for transitions -/
theorem select_trans (hw : WFStructure s) (ht : DataOK s t) (hn : n ∈ s.labels) (hls : ∀ l ∈ ls, l ∈ s.labels)
    (hi : s.getNodeIndx n = .ok i)
    (his : is.map Except.ok = ls.map s.getNodeIndx) {r : List ℤ} (hr : r ∈ t.rows) {x' : Nat}
    (hx' : nextOf s r n = some (x' : ℤ)) :
    selectCols r ((i + s.total) :: i :: is)
      = .ok ((x' :: natState s r n :: ls.map (natState s r)).map (fun (v : Nat) => (v : ℤ))) := by
  rw [selectCols_ok_iff]
  have h1 := map_cols_eq_states (s := s) (ls := n :: ls) (is := i :: is) (by simp [hi, his]) r
  rw [List.map_cons, h1, states_eq_nat hw ht hr (fun l hl => by
    rcases List.mem_cons.1 hl with rfl | hl
    · exact hn
    · exact hls l hl)]
  rw [nextOf_eq hi, Nat.add_comm] at hx'
  rw [hx']
  simp [List.map_map, Function.comp_def]

theorem code_eq_iff {c x y r : Nat} (hx : x < c) (hy : y < c) {q : Nat} : x + c * q = r * c + y ↔ x = y ∧ q = r := by
  constructor
  · intro h
    have h1 : (x + c * q) % c = (r * c + y) % c := by rw [h]
    rw [Nat.add_mul_mod_self_left, Nat.mod_eq_of_lt hx, Nat.add_comm (r * c), Nat.mul_comm r, Nat.add_mul_mod_self_left,
      Nat.mod_eq_of_lt hy] at h1
    subst h1
    refine ⟨rfl, ?_⟩
    have : c * q = c * r := by rw [Nat.mul_comm r] at h; omega
    exact Nat.eq_of_mul_eq_mul_left (by omega) this
  · rintro ⟨rfl, rfl⟩; ring

theorem rank_eq_iff {us : List Nat} (hu : InRangeAssign ps us) {r : Nat} (hr : r < ps.prod) :
    rank ps us = r ↔ us = digits ps r := by
  constructor
  · rintro rfl; exact (digits_rank hu).symm
  · rintro rfl; exact (digits_inRange hr).2

/-- Residence times are exact for cardinalities `1` / `c`. -/
theorem resTime_exact (hw : WFStructure s) (ht : DataOK s t) (hn : n ∈ s.labels) (hls : ∀ l ∈ ls, l ∈ s.labels)
    (hc : s.getStatesNumber n = .ok c) (hi : s.getNodeIndx n = .ok i)
    (hps : ps.map Except.ok = ls.map s.getStatesNumber) (his : is.map Except.ok = ls.map s.getNodeIndx)
    (hcp : 0 < c) (hpp : ∀ p ∈ ps, p = 1 ∨ p = c) :
    computeStateResTime t.times t.trajectory (i :: is) (buildTimeScalarIndexing c ps) ps.prod c
      = .ok ((List.range ps.prod).map (fun r => (List.range c).map (fun x => residence s t n ls x (digits ps r)))) := by
  have hprod : 0 < ps.prod := prod_pos_of_pos (fun p hp => by rcases hpp p hp with rfl | rfl <;> omega)
  rw [computeStateResTime_ok_iff hprod hcp (timeIdx_last c ps)]
  let code : List ℤ → ℤ := fun r => ((natState s r n + c * rank ps (ls.map (natState s r)) : Nat) : ℤ)
  refine ⟨t.rows.map code, ?_, by simp [ht.len], ?_, ?_⟩
  · rw [Trajectory.trajectory, List.mapM_map]
    apply mapM_ok_map
    intro r hr
    have := rowIndex_time hcp (ps := ps) (select_time hw ht hn hls hc hi his hr)
    rw [strideSum_eq_rank hpp (inRange_states hw ht hr hls hps), Nat.mul_one] at this
    exact this
  · intro q hq
    obtain ⟨r, hr, rfl⟩ := List.mem_map.1 hq
    have h1 := (natState_spec hw ht hr hn hc).2
    have h2 := rank_lt (inRange_states hw ht hr hls hps)
    refine ⟨by positivity, ?_⟩
    have : natState s r n + c * rank ps (ls.map (natState s r)) < ps.prod * c := by
      calc natState s r n + c * rank ps (ls.map (natState s r)) < c + c * rank ps (ls.map (natState s r)) := by omega
        _ = c * (rank ps (ls.map (natState s r)) + 1) := by ring
        _ ≤ c * ps.prod := Nat.mul_le_mul_left _ h2
        _ = ps.prod * c := by ring
    exact Int.ofNat_lt.2 this
  · unfold timeTable
    apply List.map_congr_left; intro q hq
    apply List.map_congr_left; intro x hx
    have hq' := List.mem_range.1 hq
    have hx' := List.mem_range.1 hx
    have hz : (t.rows.map code).zip t.times = (t.times.zip t.rows).map (fun p => (code p.2, p.1)) := by
      exact zip_map_swap _ _ _
    rw [hz, List.filter_map, List.map_map, residence]
    have hf : (t.times.zip t.rows).filter ((fun p : ℤ × ℚ => decide (p.1 = ((q * c + x : Nat) : ℤ))) ∘ fun p => (code p.2, p.1))
        = (t.times.zip t.rows).filter (fun r => rowMatches s n ls x (digits ps q) r.2) := by
      apply List.filter_congr
      intro p hp
      have hpr := (List.of_mem_zip hp).2
      rw [Bool.eq_iff_iff, rowMatches_iff hw ht hpr hn hls]
      simp only [Function.comp, code, decide_eq_true_eq, Nat.cast_inj]
      rw [code_eq_iff (natState_spec hw ht hpr hn hc).2 hx', rank_eq_iff (inRange_states hw ht hpr hls hps) hq']
    rw [hf]; rfl

/-- Transition counts are exact for cardinalities `1` / `c`. -/
theorem transitions_exact (hw : WFStructure s) (ht : DataOK s t) (hn : n ∈ s.labels) (hls : ∀ l ∈ ls, l ∈ s.labels)
    (hc : s.getStatesNumber n = .ok c) (hi : s.getNodeIndx n = .ok i)
    (hps : ps.map Except.ok = ls.map s.getStatesNumber) (his : is.map Except.ok = ls.map s.getNodeIndx)
    (hcp : 0 < c) (hpp : ∀ p ∈ ps, p = 1 ∨ p = c) :
    computeStateTransitions i t.rows ((i + s.total) :: i :: is) (buildTransitionScalarIndexing c ps) ps.prod c
      = .ok ((List.range ps.prod).map (fun r => (List.range c).map (fun x => (List.range c).map (fun x' =>
          if x = x' then ((List.range c).map (fun y => if x = y then 0 else transitions s t n ls x y (digits ps r))).sum
          else transitions s t n ls x x' (digits ps r))))) := by
  have hprod : 0 < ps.prod := prod_pos_of_pos (fun p hp => by rcases hpp p hp with rfl | rfl <;> omega)
  rw [computeStateTransitions_ok_iff hprod hcp (transIdx_last c ps)]
  let nx : List ℤ → ℤ := fun r => (nextOf s r n).getD 0
  let code : List ℤ → ℤ := fun r =>
    ((natNext s r n + c * (natState s r n + c * rank ps (ls.map (natState s r))) : Nat) : ℤ)
  have hnx : ∀ r ∈ t.rows, nextOf s r n = some (nx r) := by
    intro r hr
    rcases ht.nxt r hr n hn c hc with h | ⟨x, h, _⟩ <;> simp [nx, h]
  have hnat : ∀ r ∈ t.rows, 0 ≤ nx r → nextOf s r n = some ((natNext s r n : Nat) : ℤ) ∧ natNext s r n < c := by
    intro r hr h0
    rcases ht.nxt r hr n hn c hc with h | ⟨x, h, hx⟩
    · simp [nx, h] at h0
    · have : natNext s r n = x := by simp [natNext, h]
      rw [this]; exact ⟨h, hx⟩
  have hkept : ((t.rows.zip (t.rows.map nx)).filter (fun p => decide (0 ≤ p.2))).map Prod.fst
      = t.rows.filter (fun r => decide (0 ≤ nx r)) := zip_map_filter_fst t.rows nx (fun q => decide (0 ≤ q))
  refine ⟨t.rows.map nx, (t.rows.filter (fun r => decide (0 ≤ nx r))).map code, ?_, ?_, ?_, ?_⟩
  · apply mapM_ok_map
    intro r hr
    rw [pyGet_ok, ht.width r hr, Nat.mul_div_cancel_left _ (by omega), ← nextOf_eq hi]
    exact hnx r hr
  · rw [hkept]
    apply mapM_ok_map
    intro r hr
    obtain ⟨hr1, hr2⟩ := List.mem_filter.1 hr
    have hr2' : 0 ≤ nx r := by simpa using hr2
    have := rowIndex_trans hcp (ps := ps) (select_trans hw ht hn hls hi his hr1 (hnat r hr1 hr2').1)
    rw [strideSum_eq_rank hpp (inRange_states hw ht hr1 hls hps), Nat.mul_one] at this
    exact this
  · intro q hq
    obtain ⟨r, hr, rfl⟩ := List.mem_map.1 hq
    obtain ⟨hr1, hr2⟩ := List.mem_filter.1 hr
    have h0 := (hnat r hr1 (by simpa using hr2)).2
    have h1 := (natState_spec hw ht hr1 hn hc).2
    have h2 := rank_lt (inRange_states hw ht hr1 hls hps)
    refine ⟨by positivity, ?_⟩
    set q1 := rank ps (ls.map (natState s r))
    have a1 : natState s r n + c * q1 < ps.prod * c := by
      calc natState s r n + c * q1 < c + c * q1 := by omega
        _ = c * (q1 + 1) := by ring
        _ ≤ c * ps.prod := Nat.mul_le_mul_left _ h2
        _ = ps.prod * c := by ring
    have : natNext s r n + c * (natState s r n + c * q1) < ps.prod * c * c := by
      calc natNext s r n + c * (natState s r n + c * q1) < c + c * (natState s r n + c * q1) := by omega
        _ = c * (natState s r n + c * q1 + 1) := by ring
        _ ≤ c * (ps.prod * c) := Nat.mul_le_mul_left _ a1
        _ = ps.prod * c * c := by ring
    exact Int.ofNat_lt.2 this
  · have hcount : ∀ q, q < ps.prod → ∀ x, x < c → ∀ x', x' < c →
        codeCount ((t.rows.filter (fun r => decide (0 ≤ nx r))).map code) ((q * c + x) * c + x')
          = transitions s t n ls x x' (digits ps q) := by
      intro q hq x hx x' hx'
      unfold codeCount transitions
      rw [List.filter_map, List.length_map, List.filter_filter]
      congr 1
      apply List.filter_congr
      intro r hr
      rw [Bool.eq_iff_iff]
      simp only [Bool.and_eq_true, rowMatches_iff hw ht hr hn hls, decide_eq_true_eq, Function.comp]
      have hs := (natState_spec hw ht hr hn hc).2
      constructor
      · rintro ⟨hcode, h0⟩
        obtain ⟨e1, e2⟩ := hnat r hr h0
        simp only [code, Nat.cast_inj] at hcode
        obtain ⟨a1, a2⟩ := (code_eq_iff e2 hx').1 hcode
        obtain ⟨b1, b2⟩ := (code_eq_iff hs hx).1 a2
        refine ⟨⟨b1, (rank_eq_iff (inRange_states hw ht hr hls hps) hq).1 b2⟩, ?_⟩
        rw [e1, a1]
      · rintro ⟨⟨h1, h2⟩, h3⟩
        have h0 : 0 ≤ nx r := by simp [nx, h3]
        refine ⟨?_, h0⟩
        have e1 : natNext s r n = x' := by simp [natNext, h3]
        simp only [code, Nat.cast_inj]
        rw [code_eq_iff (hnat r hr h0).2 hx', code_eq_iff hs hx]
        exact ⟨e1, h1, (rank_eq_iff (inRange_states hw ht hr hls hps) hq).2 h2⟩
    unfold transTable
    apply List.map_congr_left; intro q hq
    apply List.map_congr_left; intro x hx
    apply List.map_congr_left; intro x' hx'
    have hq' := List.mem_range.1 hq
    have hx1 := List.mem_range.1 hx
    have hx2 := List.mem_range.1 hx'
    by_cases hxx : x = x'
    · simp only [hxx, if_true]
      congr 1
      apply List.map_congr_left; intro y hy
      have hy' := List.mem_range.1 hy
      split
      · rfl
      · exact (hcount q hq' x' hx2 y hy').symm
    · simp only [hxx, if_false]
      exact (hcount q hq' x hx1 x' hx2).symm

end

end PyCTBN
