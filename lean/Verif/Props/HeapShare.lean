import Verif.Props.Heap
import Verif.Props.NetGen

/-!
# C153 – C155: what happens to objects that share
-/

namespace PyCTBN
open Spec

/-! ## A general fact about `fast_init` -/

/-- After the two calls at the head of `fast_init`, whatever the graph was. -/
theorem fastInit_head {g : NetworkGraph} (h : WFStructure g.struct) :
    let g2 := (g.addNodes g.struct.labels).addEdges g.struct.edges
    g2.struct = g.struct ∧ (g.graph.edges.Nodup → g2.graph.edges.Nodup) ∧
      (∀ e, e ∈ g2.graph.edges ↔ e ∈ g.graph.edges ∨ e ∈ g.struct.edges) ∧
      (∀ l ∈ g.struct.labels, l ∈ g2.graph.keys) ∧
      (∀ l ∈ g.struct.labels, g2.getNodeIndx l = g.struct.getNodeIndx l ∧
        g2.getStatesNumber l = g.struct.getStatesNumber l) := by
  have hrows := map_fst_rows h.idxLen h.valLen
  have hnd : (((g.struct.labels.zip (g.struct.indexes.zip g.struct.vals)).zipIdx).map (fun t => t.1.1)).Nodup := by
    rw [hrows]; exact h.nodup
  obtain ⟨f1, f2, f3, f4, f5⟩ := foldl_setNode _ g.graph hnd
  rw [hrows] at f3 f5
  have hgr : ((g.addNodes g.struct.labels).addEdges g.struct.edges).graph
      = (g.addNodes g.struct.labels).graph.addEdgesFrom g.struct.edges := rfl
  refine ⟨rfl, ?_, ?_, ?_, ?_⟩
  · intro hn
    rw [hgr]
    apply DiGraph.addEdgesFrom_nodup
    simp only [NetworkGraph.addNodes]; rw [f1]; exact hn
  · intro e
    rw [hgr, DiGraph.mem_addEdgesFrom]
    simp only [NetworkGraph.addNodes]; rw [f1]
  · intro l hl
    exact DiGraph.mem_addEdgesFrom_keys.2 (Or.inl ((f3 l).2 (Or.inr hl)))
  · intro l hl
    have hk : g.struct.labels.idxOf l < g.struct.labels.length := List.idxOf_lt_length_of_mem hl
    have hrow := f4 _ (zipIdx_zip_getElem h.idxLen h.valLen _ hk)
    have hlook : ((g.addNodes g.struct.labels).addEdges g.struct.edges).graph.nodes.lookup l
        = some (some ⟨g.struct.indexes[g.struct.labels.idxOf l]'(by rw [h.idxLen]; exact hk),
            g.struct.vals[g.struct.labels.idxOf l]'(by rw [h.valLen]; exact hk), g.struct.labels.idxOf l⟩) := by
      have e1 := DiGraph.addEdgesFrom_lookup (g := (g.addNodes g.struct.labels).graph) (es := g.struct.edges)
        (l := l) ((f3 l).2 (Or.inr hl))
      refine e1.trans ?_
      simpa [NetworkGraph.addNodes] using hrow
    constructor
    · simp only [NetworkGraph.getNodeIndx, DiGraph.attr, hlook]
      simp only [Structure.getNodeIndx, pyIndex_of_mem hl, Except.bind_ok']
      rw [pyGet_of_lt (by rw [h.idxLen]; exact hk)]
      rfl
    · simp only [NetworkGraph.getStatesNumber, DiGraph.attr, hlook]
      simp only [Structure.getStatesNumber, pyIndex_of_mem hl, Except.bind_ok']
      rw [pyGet_of_lt (by rw [h.valLen]; exact hk)]
      rfl

/-- **C154**, boundary: on any graph, `fast_init(n)` succeeds if every parent of `n` (in the graph or in the structure) is a label of
the structure, with the documented result, and raises `KeyError` otherwise. -/
theorem fast_init_boundary (g : NetworkGraph) (n : Label) (h : WFStructure g.struct) (hnd : g.graph.edges.Nodup)
    (hn : n ∈ g.struct.labels) :
    ((∀ l, (l, n) ∈ g.graph.edges ∨ (l, n) ∈ g.struct.edges → l ∈ g.struct.labels) →
      ∃ g' d, g.fastInit n = .ok g' ∧ g'.derived = some d ∧
        DerivedFor g.struct (fun e => e ∈ g.graph.edges ∨ e ∈ g.struct.edges) n d) ∧
    ((∃ l, ((l, n) ∈ g.graph.edges ∨ (l, n) ∈ g.struct.edges) ∧ l ∉ g.struct.labels) →
      g.fastInit n = .error .keyError) := by
  obtain ⟨hs, hnd2, he, hk, ha⟩ := fastInit_head h
  set g2 := (g.addNodes g.struct.labels).addEdges g.struct.edges with hg2
  have hnode : g2.graph.hasNode n = true := DiGraph.hasNode_iff.2 (hk n hn)
  have hpred : g2.getParentsById n = .ok ((g2.graph.edges.filter (fun e => e.2 == n)).map Prod.fst) := by
    simp [NetworkGraph.getParentsById, DiGraph.predecessors, hnode]
  have hpm : ∀ l, l ∈ ((g2.graph.edges.filter (fun e => e.2 == n)).map Prod.fst) ↔ (l, n) ∈ g2.graph.edges := by
    intro l; simp
  have hunf : g.fastInit n = (g2.getOrderedParents n >>= fun info => g2.getStatesNumber n >>= fun ns =>
      g2.getNodeIndx n >>= fun ni => Except.ok ⟨g2.struct, g2.graph, some ⟨info,
        buildTimeScalarIndexing ns info.vals, buildTransitionScalarIndexing ns info.vals,
        buildTimeColumnsFiltering ni info.indxs, buildTransitionFiltering ni info.indxs g2.struct.total,
        buildPCombs info.vals⟩⟩) := rfl
  constructor
  · intro hcl
    have hclosed : ∀ p ∈ ((g2.graph.edges.filter (fun e => e.2 == n)).map Prod.fst), p ∈ g2.struct.labels := by
      intro p hp
      rw [hs]; exact hcl p ((he _).1 ((hpm p).1 hp))
    have hall : ((g2.graph.edges.filter (fun e => e.2 == n)).map Prod.fst).all
        (fun p => decide (p ∈ g2.struct.labels)) = true := by
      rw [List.all_eq_true]; intro p hp
      simpa using hclosed p hp
    have hsort := sort_parents_eq_filter (labels := g2.struct.labels) (by rw [hs]; exact h.nodup)
      (nodup_predecessors (hnd2 hnd) n) hclosed
    have hfil : g2.struct.labels.filter
        (fun l => decide (l ∈ ((g2.graph.edges.filter (fun e => e.2 == n)).map Prod.fst)))
        = g.struct.labels.filter (fun l => decide ((l, n) ∈ g.graph.edges ∨ (l, n) ∈ g.struct.edges)) := by
      rw [hs]; apply List.filter_congr; intro l _
      rw [decide_eq_decide, hpm, he]
    rw [hfil] at hsort
    set P := g.struct.labels.filter (fun l => decide ((l, n) ∈ g.graph.edges ∨ (l, n) ∈ g.struct.edges)) with hP
    have hPsub : ∀ p ∈ P, p ∈ g.struct.labels := fun p hp => (List.mem_filter.1 hp).1
    have hidx : ∀ p ∈ P, ∃ b, g.struct.getNodeIndx p = .ok b := fun p hp => by
      obtain ⟨v, _, hv⟩ := lookupPos_mem (vals := g.struct.indexes) (hPsub p hp) h.idxLen; exact ⟨v, hv⟩
    have hval : ∀ p ∈ P, ∃ b, g.struct.getStatesNumber p = .ok b := fun p hp => by
      obtain ⟨v, _, hv⟩ := lookupPos_mem (vals := g.struct.vals) (hPsub p hp) h.valLen; exact ⟨v, hv⟩
    obtain ⟨is, hi1, hi2⟩ := mapM_ok_of_forall _ P hidx
    obtain ⟨vs, hv1, hv2⟩ := mapM_ok_of_forall _ P hval
    have hi1' : P.mapM g2.getNodeIndx = .ok is := by
      rw [mapM_congr_py (fun p hp => (ha p (hPsub p hp)).1)]; exact hi1
    have hv1' : P.mapM g2.getStatesNumber = .ok vs := by
      rw [mapM_congr_py (fun p hp => (ha p (hPsub p hp)).2)]; exact hv1
    obtain ⟨c, _, hc⟩ := lookupPos_mem (vals := g.struct.vals) hn h.valLen
    obtain ⟨i, _, hi⟩ := lookupPos_mem (vals := g.struct.indexes) hn h.idxLen
    have hord : g2.getOrderedParents n = .ok ⟨P, is, vs⟩ := by
      simp only [NetworkGraph.getOrderedParents, hpred, Except.bind_ok', hall, if_true, hsort, hi1', hv1']
      rfl
    let D : Derived := ⟨⟨P, is, vs⟩, buildTimeScalarIndexing c vs, buildTransitionScalarIndexing c vs,
      buildTimeColumnsFiltering i is, buildTransitionFiltering i is g.struct.total, buildPCombs vs⟩
    have hfi : g.fastInit n = .ok ⟨g2.struct, g2.graph, some D⟩ := by
      have e1 : g2.getStatesNumber n = .ok c := (ha n hn).2.trans hc
      have e2 : g2.getNodeIndx n = .ok i := (ha n hn).1.trans hi
      rw [hunf, hord, e1, e2]
      rfl
    refine ⟨_, _, hfi, rfl, ?_, List.filter_sublist, hi2, hv2, ⟨c, i, hc, hi, rfl, rfl, rfl, rfl, rfl⟩⟩
    intro l
    show l ∈ P ↔ _
    rw [hP, List.mem_filter, decide_eq_true_eq]
    exact ⟨fun h => h.2, fun hl => ⟨hcl l hl, hl⟩⟩
  · rintro ⟨l, hl, hnl⟩
    have hall : ((g2.graph.edges.filter (fun e => e.2 == n)).map Prod.fst).all
        (fun p => decide (p ∈ g2.struct.labels)) = false := by
      rw [List.all_eq_false]
      exact ⟨l, (hpm l).2 ((he _).2 hl), by rw [hs]; simpa using hnl⟩
    rw [hunf]
    have : g2.getOrderedParents n = .error .keyError := by
      simp only [NetworkGraph.getOrderedParents, hpred, Except.bind_ok', hall]
      rfl
    rw [this]; rfl

/-! ## Two structures over one list of labels -/

theorem getElem?_idxOf_erase {l : List Label} (hnd : l.Nodup) {x y : Label} (hx : x ∈ l) (hy : y ∈ l) (hne : y ≠ x) :
    (l.erase x).idxOf y = if l.idxOf y < l.idxOf x then l.idxOf y else l.idxOf y - 1 := by
  induction l with
  | nil => simp at hx
  | cons a l ih =>
    by_cases hax : a = x
    · subst hax
      rw [List.erase_cons_head]
      have h1 : (a :: l).idxOf a = 0 := List.idxOf_cons_self
      have h2 : (a :: l).idxOf y = l.idxOf y + 1 := List.idxOf_cons_ne _ (Ne.symm hne)
      rw [h1, h2]; simp
    · rw [List.erase_cons_tail (by simpa using hax)]
      have hx' : x ∈ l := by
        rcases List.mem_cons.1 hx with h | h
        · exact absurd h.symm hax
        · exact h
      have h1 : (a :: l).idxOf x = l.idxOf x + 1 := List.idxOf_cons_ne _ hax
      by_cases hay : a = y
      · subst hay
        have h2 : (a :: l).idxOf a = 0 := List.idxOf_cons_self
        rw [List.idxOf_cons_self, h2, h1]; simp
      · have hy' : y ∈ l := by
          rcases List.mem_cons.1 hy with h | h
          · exact absurd h.symm hay
          · exact h
        have h2 : (a :: l).idxOf y = l.idxOf y + 1 := List.idxOf_cons_ne _ hay
        rw [List.idxOf_cons_ne _ hay, h1, h2, ih (List.nodup_cons.1 hnd).2 hx' hy']
        have hne' : l.idxOf y ≠ l.idxOf x := fun hh => hne ((List.idxOf_inj hy').1 hh)
        split <;> split <;> omega

/-- **C153** (refuted) Two structures built from one list of labels: removing a node from one of them removes its label, and nothing
else, from the other. -/
theorem shared_labels_effect (h : Heap) (s t : Nat) (v w : Structure) (x : Label)
    (hst : s ≠ t) (hv : h.structView s = some v) (hw : h.structView t = some w)
    (hshare : h.structs[s]?.map StructObj.labels = h.structs[t]?.map StructObj.labels)
    (hwfv : WFStructure v) (hx : x ∈ v.labels) :
    (h.step (.onStruct s (.removeNode x))).2 = none ∧
    (h.step (.onStruct s (.removeNode x))).1.structView t = some { w with labels := w.labels.erase x } := by
  obtain ⟨o, g1, g2, g3, g4, g5, g6⟩ := structView_eq.1 hv
  obtain ⟨o', k1, k2, k3, k4, k5, k6⟩ := structView_eq.1 hw
  have hll : o.labels = o'.labels := by rw [g1, k1] at hshare; simpa using hshare
  have hlab : w.labels = v.labels := by rw [← hll, g2] at k2; exact (Option.some.inj k2).symm
  have hpos := pyIndex_of_mem hx
  have hi := List.idxOf_lt_length_of_mem hx
  have hl : o.labels < h.labelLists.length := (List.getElem?_eq_some_iff.1 g2).1
  have he : o'.edges < h.edgeLists.length := (List.getElem?_eq_some_iff.1 k3).1
  have hd1 : npDelete o.indexes (v.labels.idxOf x) = .ok (v.indexes.eraseIdx (v.labels.idxOf x)) := by
    rw [g4]; simp [npDelete, hwfv.idxLen, hi]
  have hd2 : npDelete o.vals (v.labels.idxOf x) = .ok (v.vals.eraseIdx (v.labels.idxOf x)) := by
    rw [g5]; simp [npDelete, hwfv.valLen, hi]
  have hstep : h.step (.onStruct s (.removeNode x)) = h.structRemoveNode s o v.labels v.edges x := by
    simp only [Heap.step, Heap.structOp, g1, g2, g3]
  rw [hstep]
  unfold Heap.structRemoveNode
  simp only [hpos, hd1, hd2]
  refine ⟨trivial, structView_eq.2 ⟨o', ?_, ?_, ?_, k4, k5, k6⟩⟩
  · simp only
    rw [List.getElem?_set_ne hst]; exact k1
  · simp only
    rw [← hll, List.getElem?_set_self hl, hlab, eraseIdx_idxOf]
  · simp only
    rw [List.getElem?_append_left he]; exact k3

/-- **C153**, exact boundary: the other structure still gives every remaining variable its own cardinality iff all cardinalities from
the removed variable on are equal. -/
theorem shared_labels_answers_iff (w : Structure) (x : Label) (hwf : WFStructure w) (hx : x ∈ w.labels) :
    (∀ l ∈ w.labels, l ≠ x → ({ w with labels := w.labels.erase x } : Structure).getStatesNumber l = w.getStatesNumber l) ↔
    (∀ i, w.labels.idxOf x ≤ i → i + 1 < w.labels.length → w.vals[i]? = w.vals[i + 1]?) := by
  have hget : ∀ l ∈ w.labels, l ≠ x →
      ({ w with labels := w.labels.erase x } : Structure).getStatesNumber l =
        pyGet w.vals (if w.labels.idxOf l < w.labels.idxOf x then w.labels.idxOf l else w.labels.idxOf l - 1) := by
    intro l hl hlx
    have hm : l ∈ w.labels.erase x := (hwf.nodup.mem_erase_iff).2 ⟨hlx, hl⟩
    unfold Structure.getStatesNumber
    simp only [pyIndex_of_mem hm, Except.bind_ok']
    rw [getElem?_idxOf_erase hwf.nodup hx hl hlx]
  have hget' : ∀ l ∈ w.labels, w.getStatesNumber l = pyGet w.vals (w.labels.idxOf l) := by
    intro l hl
    unfold Structure.getStatesNumber
    simp only [pyIndex_of_mem hl, Except.bind_ok']
  have hpg : ∀ i j, i < w.labels.length → j < w.labels.length → (pyGet w.vals i = pyGet w.vals j ↔ w.vals[i]? = w.vals[j]?) := by
    intro i j hi hj
    rw [← hwf.valLen] at hi hj
    rw [pyGet_of_lt hi, pyGet_of_lt hj, List.getElem?_eq_getElem hi, List.getElem?_eq_getElem hj]
    simp
  constructor
  · intro hall i hi hi1
    have hl := List.getElem_mem hi1
    have hidx : w.labels.idxOf w.labels[i + 1] = i + 1 := hwf.nodup.idxOf_getElem (i + 1) hi1
    have hne : w.labels[i + 1] ≠ x := by
      intro hh
      rw [hh] at hidx; omega
    have := hall _ hl hne
    rw [hget _ hl hne, hget' _ hl, hidx, if_neg (by omega)] at this
    exact (hpg i (i + 1) (by omega) hi1).1 this
  · intro hall l hl hlx
    rw [hget l hl hlx, hget' l hl]
    split
    · rfl
    · rename_i hlt
      have hne : w.labels.idxOf l ≠ w.labels.idxOf x := fun hh => hlx ((List.idxOf_inj hl).1 hh)
      have hil := List.idxOf_lt_length_of_mem hl
      have := hall (w.labels.idxOf l - 1) (by omega) (by omega)
      rw [show w.labels.idxOf l - 1 + 1 = w.labels.idxOf l by omega] at this
      exact (hpg _ _ (by omega) hil).2 this

/-- **C153**, in one statement: after `remove_node(x)` on `s`, a structure `t` over the same list of labels still gives every
remaining variable the cardinality it gave before iff all cardinalities of `t` from the position of `x` on are equal. -/
theorem shared_labels_iff (h : Heap) (s t : Nat) (v w : Structure) (x : Label)
    (hst : s ≠ t) (hv : h.structView s = some v) (hw : h.structView t = some w)
    (hshare : h.structs[s]?.map StructObj.labels = h.structs[t]?.map StructObj.labels)
    (hwfv : WFStructure v) (hwfw : WFStructure w) (hx : x ∈ v.labels) :
    ∃ w', (h.step (.onStruct s (.removeNode x))).1.structView t = some w' ∧ x ∉ w'.labels ∧ w'.edges = w.edges ∧
      ((∀ l ∈ w.labels, l ≠ x → w'.getStatesNumber l = w.getStatesNumber l) ↔
        (∀ i, w.labels.idxOf x ≤ i → i + 1 < w.labels.length → w.vals[i]? = w.vals[i + 1]?)) := by
  obtain ⟨-, h2⟩ := shared_labels_effect h s t v w x hst hv hw hshare hwfv hx
  have hxw : x ∈ w.labels := by
    obtain ⟨o, g1, g2, -⟩ := structView_eq.1 hv
    obtain ⟨o', k1, k2, -⟩ := structView_eq.1 hw
    have hll : o.labels = o'.labels := by rw [g1, k1] at hshare; simpa using hshare
    rw [← hll, g2] at k2
    rw [← Option.some.inj k2]; exact hx
  exact ⟨_, h2, fun hc => ((hwfw.nodup.mem_erase_iff).1 hc).1 rfl, rfl, shared_labels_answers_iff w x hwfw hxw⟩

/-- **C153** Two structures built from one list of edges: an edge added to one is added to the other. -/
theorem shared_edges_effect (h : Heap) (s t : Nat) (v w : Structure) (e : Edge)
    (hv : h.structView s = some v) (hw : h.structView t = some w)
    (hshare : h.structs[s]?.map StructObj.edges = h.structs[t]?.map StructObj.edges) :
    (h.step (.onStruct s (.addEdge e))).1.structView t = some { w with edges := w.edges ++ [e] } := by
  obtain ⟨o, g1, g2, g3, g4, g5, g6⟩ := structView_eq.1 hv
  obtain ⟨o', k1, k2, k3, k4, k5, k6⟩ := structView_eq.1 hw
  have hll : o.edges = o'.edges := by rw [g1, k1] at hshare; simpa using hshare
  have hed : w.edges = v.edges := by rw [← hll, g3] at k3; exact (Option.some.inj k3).symm
  have he : o.edges < h.edgeLists.length := (List.getElem?_eq_some_iff.1 g3).1
  simp only [Heap.step, Heap.structOp, g1, g2, g3]
  refine structView_eq.2 ⟨o', k1, k2, ?_, k4, k5, k6⟩
  simp only
  rw [← hll, List.getElem?_set_self he, hed]

/-! ## Two graphs over one structure -/

/-- **C154** (refuted) Two graphs over one structure: after `remove_node(x)` on one, `fast_init(n)` on the other raises `KeyError` iff
`x` is still a parent of `n` there; otherwise it succeeds, with the documented result for the reduced structure. -/
theorem shared_structure_effect (h : Heap) (g₁ g₂ s : Nat) (v₁ v₂ : NetworkGraph) (x n : Label)
    (hne : g₁ ≠ g₂) (h₁ : h.graphs[g₁]?.map GraphObj.struct = some s) (h₂ : h.graphs[g₂]?.map GraphObj.struct = some s)
    (hv₁ : h.graphView g₁ = some v₁) (hv₂ : h.graphView g₂ = some v₂) (hinv : GInv v₂)
    (hx : x ∈ v₂.struct.labels) (hx₁ : v₁.graph.hasNode x = true) (hn : n ∈ v₂.struct.labels) (hnx : n ≠ x) :
    ∃ s' v₂', v₂.struct.removeNode x = .ok s' ∧ (h.step (.removeNode g₁ x)).1.graphView g₂ = some v₂' ∧
      v₂' = { v₂ with struct := s' } ∧
      (((x, n) ∈ v₂.graph.edges) → v₂'.fastInit n = .error .keyError) ∧
      (((x, n) ∉ v₂.graph.edges) → ∃ r d, v₂'.fastInit n = .ok r ∧ r.derived = some d ∧
        DerivedFor s' (fun e => e ∈ v₂.graph.edges ∨ e ∈ s'.edges) n d) := by
  obtain ⟨o₁, p1, p2, p3, p4⟩ := graphView_eq.1 hv₁
  obtain ⟨o₂, q1, q2, q3, q4⟩ := graphView_eq.1 hv₂
  have e1 : o₁.struct = s := by rw [p1] at h₁; simpa using h₁
  have e2 : o₂.struct = s := by rw [q1] at h₂; simpa using h₂
  have hsame : v₁.struct = v₂.struct := by
    rw [e1] at p2; rw [e2, p2] at q2; exact Option.some.inj q2
  have hwf : WFStructure v₂.struct := hinv.cs.toWFStructure
  have hrm := Structure.removeNode_of_mem hwf hx
  have hwf' := wf_removeNode hwf hrm
  obtain ⟨s₀, hs₀, a1, a2, a3, a4, a5, a6, a7⟩ := remove_node_only_that_node _ x hwf hx
  have hs0 : s₀ = _ := Except.ok.inj (hs₀.symm.trans hrm)
  -- the view of the other graph
  have hview : (h.step (.removeNode g₁ x)).1.graphView g₂ = some { v₂ with struct := s₀ } := by
    have hself := step_graph_self (h := h) (.removeNode g₁ x) (by simp [callsGraph]) hv₁ (by rw [hsame]; exact hwf)
    have hcall : (graphCall v₁ (.removeNode g₁ x)).struct = s₀ := by
      have hg : v₁.graph.removeNode x = .ok ⟨v₁.graph.nodes.filter (fun p => p.1 != x),
          v₁.graph.edges.filter (fun e => e.1 != x && e.2 != x)⟩ := by simp [DiGraph.removeNode, hx₁]
      have hr : v₁.removeNode x = .ok ⟨s₀, ⟨v₁.graph.nodes.filter (fun p => p.1 != x),
          v₁.graph.edges.filter (fun e => e.1 != x && e.2 != x)⟩, none⟩ := by
        simp only [NetworkGraph.removeNode, hg, hsame, hs₀, Except.bind_ok']; rfl
      show (match v₁.removeNode x with
        | .ok v' => v'
        | .error _ => match v₁.graph.removeNode x with
          | .ok gr => { v₁ with graph := gr }
          | .error _ => v₁).struct = s₀
      rw [hr]
    obtain ⟨o₁', r1, r2, r3, r4⟩ := graphView_eq.1 hself
    have hhold := removeNode_holders h g₁ x
    have hos : o₁'.struct = s := by
      have : ((h.step (.removeNode g₁ x)).1.graphs.map GraphObj.struct)[g₁]? = (h.graphs.map GraphObj.struct)[g₁]? := by
        rw [hhold]
      rw [List.getElem?_map, List.getElem?_map, r1, p1] at this
      simpa [e1] using this
    refine graphView_eq.2 ⟨o₂, step_graphs_other _ q1 (by simpa [callsGraph] using hne), ?_, q3, q4⟩
    rw [e2, ← hos, r2, hcall]
  refine ⟨s₀, _, hs₀, hview, rfl, ?_, ?_⟩
  · intro hxe
    refine (fast_init_boundary { v₂ with struct := s₀ } n (by rw [hs0]; exact hwf') hinv.edgesNodup
      ((a2 n).2 ⟨hn, hnx⟩)).2 ⟨x, .inl hxe, fun hc => ((a2 x).1 hc).2 rfl⟩
  · intro hxe
    refine (fast_init_boundary { v₂ with struct := s₀ } n (by rw [hs0]; exact hwf') hinv.edgesNodup
      ((a2 n).2 ⟨hn, hnx⟩)).1 ?_
    rintro l (hl | hl)
    · refine (a2 l).2 ⟨(hinv.edgesClosed _ hl).1, ?_⟩
      rintro rfl; exact hxe hl
    · have hl' : (l, n) ∈ s₀.edges := hl
      rw [a4, List.mem_filter] at hl'
      refine (a2 l).2 ⟨(hinv.cs.closed _ hl'.1).1, ?_⟩
      have := of_decide_eq_true hl'.2
      exact this.1

/-! ## A generator and its graph -/

/-- **C155** (exact boundary) After `generator.graph.remove_node(x)`, `generate_cims` gives every remaining variable CIMs of its own
size iff all cardinalities from the removed variable on are equal. -/
theorem generator_after_removal (ng ng₁ ng₂ : NetGen) (g : NetworkGraph) (x : Label) (lo hi : ℚ) (draws : NetGen.CimDraws)
    (hn : ng.labels.Nodup) (hv : ng.vals.length = ng.labels.length) (hg : ng.graph = some g) (hgl : g.struct.labels = ng.labels)
    (hgw : WFStructure g.struct) (hx : x ∈ ng.labels) (h₁ : ng.graphRemoveNode x = .ok ng₁)
    (h₂ : ng₁.generateCims lo hi draws = .ok ng₂) :
    ∃ L, ng₂.cims = some L ∧ L.map Prod.fst = ng.labels.erase x ∧
      ((∀ l S, (l, S) ∈ L → ng.vals[ng.labels.idxOf l]? = some S.nodeStates) ↔
        (∀ i, ng.labels.idxOf x ≤ i → i + 1 < ng.labels.length → ng.vals[i]? = ng.vals[i + 1]?)) := by
  -- the generator after the removal
  have hrm := Structure.removeNode_of_mem hgw (x := x) (by rw [hgl]; exact hx)
  obtain ⟨g', hg', hgraph, hlab, hvals⟩ : ∃ g', g.removeNode x = .ok g' ∧ ng₁.graph = some g' ∧
      ng₁.labels = ng.labels.erase x ∧ ng₁.vals = ng.vals := by
    unfold NetGen.graphRemoveNode at h₁
    rw [hg] at h₁
    simp only at h₁
    cases hgx : g.graph.removeNode x with
    | error e => simp [NetworkGraph.removeNode, hgx, bind, Except.bind] at h₁
    | ok gr =>
      obtain ⟨s', hs', hs'l⟩ : ∃ s', g.struct.removeNode x = .ok s' ∧ s'.labels = ng.labels.erase x :=
        ⟨_, hrm, by simp only [eraseIdx_idxOf]; rw [hgl]⟩
      have hr : g.removeNode x = .ok ⟨s', gr, none⟩ := by
        simp only [NetworkGraph.removeNode, hgx, hs', Except.bind_ok']; rfl
      rw [hr] at h₁
      simp only [Except.bind_ok', Except.pure_eq_ok', Except.ok.injEq] at h₁
      subst h₁
      exact ⟨_, hr, rfl, hs'l, rfl⟩
  have hlen : (ng.labels.erase x).length = ng.labels.length - 1 := List.length_erase_of_mem hx
  -- what `generate_cims` computes
  unfold NetGen.generateCims at h₂
  rw [hgraph] at h₂
  simp only at h₂
  cases hm : ng₁.labels.zipIdx.mapM (fun p => do
      let card ← pyGet ng₁.vals p.2
      let s ← NetGen.genNode g' lo hi card draws p.1 p.2
      return (p.1, s)) with
  | error e => rw [hm] at h₂; simp at h₂
  | ok L =>
    rw [hm] at h₂
    simp only [Except.bind_ok', Except.pure_eq_ok', Except.ok.injEq] at h₂
    subst h₂
    have hf := mapM_ok_mem hm
    have hL : L.length = ng₁.labels.length := by rw [← hf.length_eq]; simp
    have node : ∀ i (hil : i < L.length), ∃ c S, ng.vals[i]? = some c ∧ L[i] = (ng₁.labels[i]'(by omega), S) ∧ S.nodeStates = c := by
      intro i hil
      have hg := List.Forall₂.get hf (by simpa using (by omega : i < ng₁.labels.length)) hil
      simp only [List.get_eq_getElem, List.getElem_zipIdx, Nat.zero_add] at hg
      cases hc : pyGet ng₁.vals i with
      | error e => rw [hc] at hg; simp at hg
      | ok c =>
        rw [hc] at hg
        simp only [Except.bind_ok'] at hg
        cases hs : NetGen.genNode g' lo hi c draws (ng₁.labels[i]'(by omega)) i with
        | error e => rw [hs] at hg; simp at hg
        | ok S =>
          rw [hs] at hg
          simp only [Except.bind_ok', Except.pure_eq_ok', Except.ok.injEq] at hg
          refine ⟨c, S, ?_, hg.symm, ?_⟩
          · rw [hvals] at hc; exact pyGet_ok.1 hc
          · unfold NetGen.genNode at hs
            simp only [bind, Except.bind] at hs
            split at hs
            · cases hs
            · split at hs
              · cases hs
              · cases hs; rfl
    have hfst : L.map Prod.fst = ng.labels.erase x := by
      apply List.ext_getElem
      · rw [List.length_map, hL, hlab]
      · intro i h1 h2
        obtain ⟨c, S, -, h3, -⟩ := node i (by simpa using h1)
        rw [List.getElem_map, h3]
        simp only [hlab]
    refine ⟨L, rfl, hfst, ?_⟩
    have hLl : L.length = ng.labels.length - 1 := by rw [hL, hlab, hlen]
    have hposx := List.idxOf_lt_length_of_mem hx
    have key : ∀ l S, (l, S) ∈ L → l ∈ ng.labels ∧ l ≠ x ∧
        ng.vals[if ng.labels.idxOf l < ng.labels.idxOf x then ng.labels.idxOf l else ng.labels.idxOf l - 1]? = some S.nodeStates := by
      intro l S hlS
      obtain ⟨i, hi, hie⟩ := List.mem_iff_getElem.1 hlS
      obtain ⟨c, S', h1, h2, h3⟩ := node i hi
      rw [h2] at hie
      have hl1 : l = (ng.labels.erase x)[i]'(by rw [hlen]; omega) := by
        have := (congrArg Prod.fst hie).symm
        simp only [hlab] at this; exact this
      have hS : S' = S := congrArg Prod.snd hie
      have hmem : l ∈ ng.labels.erase x := by rw [hl1]; exact List.getElem_mem _
      obtain ⟨hlx, hll⟩ := (hn.mem_erase_iff).1 hmem
      refine ⟨hll, hlx, ?_⟩
      rw [← getElem?_idxOf_erase hn hx hll hlx]
      have : (ng.labels.erase x).idxOf l = i := by
        rw [hl1]; exact (hn.erase x).idxOf_getElem i _
      rw [this, h1, ← h3, hS]
    constructor
    · intro hall i hi hi1
      -- the variable in position `i + 1`
      have hidx : ng.labels.idxOf ng.labels[i + 1] = i + 1 := hn.idxOf_getElem (i + 1) hi1
      have hne : ng.labels[i + 1] ≠ x := by
        intro hh
        rw [hh] at hidx; omega
      have hmem : ng.labels[i + 1] ∈ L.map Prod.fst := by
        rw [hfst]; exact (hn.mem_erase_iff).2 ⟨hne, List.getElem_mem hi1⟩
      obtain ⟨⟨l, S⟩, hlS, hle⟩ := List.mem_map.1 hmem
      simp only at hle
      subst hle
      have h1 := (key _ _ hlS).2.2
      have h2 := hall _ _ hlS
      rw [hidx] at h1 h2
      rw [if_neg (by omega)] at h1
      rw [h2, ← h1]; rfl
    · intro hall l S hlS
      obtain ⟨h1, h2, h3⟩ := key l S hlS
      split at h3
      · exact h3
      · rename_i hlt
        have hne : ng.labels.idxOf l ≠ ng.labels.idxOf x := fun hh => h2 ((List.idxOf_inj h1).1 hh)
        have hil := List.idxOf_lt_length_of_mem h1
        have := hall (ng.labels.idxOf l - 1) (by omega) (by omega)
        rw [show ng.labels.idxOf l - 1 + 1 = ng.labels.idxOf l by omega] at this
        rw [← this]; exact h3

/-- **C80**, second part.  In any program, `remove_node` of a label that is no node of the graph raises and leaves every object as it
was. -/
theorem graph_remove_unknown (h : Heap) (g : Nat) (v : NetworkGraph) (x : Label) (hv : h.graphView g = some v)
    (hx : v.graph.hasNode x = false) : h.step (.removeNode g x) = (h, some .networkXError) := by
  obtain ⟨o, ho, s, hs, rfl⟩ : ∃ o, h.graphs[g]? = some o ∧ ∃ s, h.structView o.struct = some s ∧ v = ⟨s, o.graph, o.derived⟩ := by
    unfold Heap.graphView at hv
    split at hv
    · cases hv
    · rename_i o ho
      split at hv
      · rename_i s hs; cases hv; exact ⟨o, ho, s, hs, rfl⟩
      · cases hv
  have hx' : o.graph.hasNode x = false := hx
  simp [Heap.step, Heap.graphRemoveNode, ho, DiGraph.removeNode, hx']

end PyCTBN
