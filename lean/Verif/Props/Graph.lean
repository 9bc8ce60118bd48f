import Verif.Lemmas.Graph
import Verif.Props.Structure

/-!
# C13, C14 and C80: properties of `NetworkGraph`
-/

namespace PyCTBN
open Spec

/-- Every history that only mentions known labels runs to completion, keeps the invariant, and refines the abstract
edge predicate. -/
theorem runGraphOps_refines (g : NetworkGraph) (ops : List GraphOp) (h : GInv g)
    (hops : ∀ op ∈ ops, op.labelsIn g.struct.labels) :
    ∃ g', runGraphOps g ops = .ok g' ∧ GInv g' ∧ g'.struct = g.struct ∧
      ∀ e, e ∈ g'.graph.edges ↔ ops.foldl (absStep g.struct) (fun e => e ∈ g.graph.edges) e := by
  induction ops generalizing g with
  | nil => exact ⟨g, rfl, h, rfl, fun e => Iff.rfl⟩
  | cons op ops ih =>
    have hop := hops op (by simp)
    have key : ∃ g1, op.run g = .ok g1 ∧ GInv g1 ∧ g1.struct = g.struct ∧
        ∀ e, e ∈ g1.graph.edges ↔ absStep g.struct (fun e => e ∈ g.graph.edges) op e := by
      cases op with
      | addEdges es => exact ⟨_, rfl, h.addEdges hop, rfl, fun e => DiGraph.mem_addEdgesFrom⟩
      | removeEdges es => exact ⟨_, rfl, h.removeEdges es, rfl, fun e => DiGraph.mem_removeEdgesFrom h.edgesNodup⟩
      | fastInit n =>
        obtain ⟨g', d, h1, h2, h3, _, h5, _⟩ := fastInit_spec h hop
        exact ⟨g', h1, h2, h3, h5⟩
    obtain ⟨g1, k1, k2, k3, k4⟩ := key
    obtain ⟨g', i1, i2, i3, i4⟩ := ih g1 k2 (fun o ho => by rw [k3]; exact hops o (by simp [ho]))
    refine ⟨g', ?_, i2, i3.trans k3, ?_⟩
    · simp only [runGraphOps, k1, Except.bind_ok']; exact i1
    · intro e
      rw [i4, k3]
      have : (fun e => e ∈ g1.graph.edges) = absStep g.struct (fun e => e ∈ g.graph.edges) op :=
        funext fun e => propext (k4 e)
      rw [this]; rfl

/-- **C13** After any history of `add_edges`, `remove_edges` and `fast_init` calls on a fresh graph, `fast_init(n)` succeeds
and the parents it reports are the labels of the structure, in the structure's order, that the history made parents of
`n`; each comes with the index and cardinality the structure gives it. -/
theorem fast_init_parent_info_canonical (s : Structure) (hs : ClosedStructure s) (ops : List GraphOp)
    (hops : ∀ op ∈ ops, op.labelsIn s.labels) (n : Label) (hn : n ∈ s.labels) :
    ∃ g g' d, runGraphOps (NetworkGraph.new s) ops = .ok g ∧ g.fastInit n = .ok g' ∧ g'.derived = some d ∧
      (∀ l, l ∈ d.info.parents ↔ g'.hasEdge (l, n) = true) ∧
      (∀ l, l ∈ d.info.parents ↔
        (ops.foldl (absStep s) (fun _ => False) (l, n) ∨ (l, n) ∈ s.edges)) ∧
      d.info.parents.Sublist s.labels ∧
      d.info.indxs.map Except.ok = d.info.parents.map s.getNodeIndx ∧
      d.info.vals.map Except.ok = d.info.parents.map s.getStatesNumber := by
  obtain ⟨g, h1, h2, h3, h4⟩ := runGraphOps_refines (NetworkGraph.new s) ops (GInv.new hs) hops
  have h3' : g.struct = s := h3
  obtain ⟨g', d, k1, k2, k3, k4, k5, k6, k7, k8, k9⟩ := fastInit_spec h2 (by rw [h3']; exact hn)
  have hempty : (fun e => e ∈ (NetworkGraph.new s).graph.edges) = fun _ => False := by
    funext e; simp [NetworkGraph.new, DiGraph.empty]
  refine ⟨g, g', d, h1, k1, k4, ?_, ?_, ?_, ?_, ?_⟩
  · intro l
    rw [k9.parents_mem, ← k5]; simp [NetworkGraph.hasEdge, DiGraph.hasEdge]
  · intro l
    rw [k9.parents_mem, h4, hempty, h3']; rfl
  · rw [← h3']; exact k9.parents_sub
  · rw [← h3']; exact k9.indxs
  · rw [← h3']; exact k9.vals

/-- **C13**, order independence: two histories that agree on which edges are present report *identical* parent
information (same order) for every node, and identical indexing structures. -/
theorem fast_init_history_independent (s : Structure) (hs : ClosedStructure s) (ops₁ ops₂ : List GraphOp)
    (h₁ : ∀ op ∈ ops₁, op.labelsIn s.labels) (h₂ : ∀ op ∈ ops₂, op.labelsIn s.labels) (n : Label) (hn : n ∈ s.labels)
    (same : ∀ e, ops₁.foldl (absStep s) (fun _ => False) e ↔ ops₂.foldl (absStep s) (fun _ => False) e) :
    ∃ g₁ g₂ g₁' g₂' d, runGraphOps (NetworkGraph.new s) ops₁ = .ok g₁ ∧ runGraphOps (NetworkGraph.new s) ops₂ = .ok g₂ ∧
      g₁.fastInit n = .ok g₁' ∧ g₂.fastInit n = .ok g₂' ∧ g₁'.derived = some d ∧ g₂'.derived = some d := by
  obtain ⟨g₁, a1, a2, a3, a4⟩ := runGraphOps_refines (NetworkGraph.new s) ops₁ (GInv.new hs) h₁
  obtain ⟨g₂, b1, b2, b3, b4⟩ := runGraphOps_refines (NetworkGraph.new s) ops₂ (GInv.new hs) h₂
  have a3' : g₁.struct = s := a3
  have b3' : g₂.struct = s := b3
  have hempty : (fun e => e ∈ (NetworkGraph.new s).graph.edges) = fun _ => False := by
    funext e; simp [NetworkGraph.new, DiGraph.empty]
  obtain ⟨g₁', d₁, k1, k2, k3, k4, k5, k6, k7, k8, k9⟩ := fastInit_spec a2 (by rw [a3']; exact hn)
  obtain ⟨g₂', d₂, m1, m2, m3, m4, m5, m6, m7, m8, m9⟩ := fastInit_spec b2 (by rw [b3']; exact hn)
  have hd : d₁ = d₂ := by
    have hpar : d₁.info.parents = d₂.info.parents := by
      rw [k8, m8, a3', b3']
      apply List.filter_congr; intro l _
      rw [decide_eq_decide, a4, b4, hempty]
      have := same (l, n)
      constructor
      · rintro (h | h)
        · exact Or.inl (this.1 h)
        · exact Or.inr h
      · rintro (h | h)
        · exact Or.inl (this.2 h)
        · exact Or.inr h
    have okinj : ∀ xs ys : List Nat, xs.map (Except.ok (ε := PyErr)) = ys.map Except.ok → xs = ys := fun xs ys h =>
      (List.map_injective_iff.2 (fun _ _ h => Except.ok.inj h)) h
    have hidx : d₁.info.indxs = d₂.info.indxs := okinj _ _ (by rw [k9.indxs, m9.indxs, hpar, a3', b3'])
    have hval : d₁.info.vals = d₂.info.vals := okinj _ _ (by rw [k9.vals, m9.vals, hpar, a3', b3'])
    obtain ⟨c, i, e1, e2, e3, e4, e5, e6, e7⟩ := k9.nodeData
    obtain ⟨c', i', f1, f2, f3, f4, f5, f6, f7⟩ := m9.nodeData
    have hs12 : g₁.struct = g₂.struct := a3'.trans b3'.symm
    rw [hs12] at e1 e2 e6
    have hc : c = c' := Except.ok.inj (e1.symm.trans f1)
    have hi : i = i' := Except.ok.inj (e2.symm.trans f2)
    subst hc hi
    rw [hval] at e3 e4 e7; rw [hidx] at e5 e6
    obtain ⟨⟨p1, p2, p3⟩, q2, q3, q4, q5, q6⟩ := d₁
    obtain ⟨⟨r1, r2, r3⟩, t2, t3, t4, t5, t6⟩ := d₂
    simp only at hpar hidx hval e3 e4 e5 e6 e7 f3 f4 f5 f6 f7
    simp [hpar, hidx, hval, e3, e4, e5, e6, e7, f3, f4, f5, f6, f7]
  exact ⟨g₁, g₂, g₁', g₂', d₁, a1, b1, k1, m1, k4, hd ▸ m4⟩

/-- The concrete non-trivial structure and history used below. -/
theorem exStructure_closed : ClosedStructure exStructure :=
  { exStructure_wf with closed := by decide }

example : ClosedStructure exStructure ∧
    (∀ op ∈ [GraphOp.addEdges [("Z", "X"), ("Y", "X")], .removeEdges [("Y", "X")], .fastInit "Y"],
      op.labelsIn exStructure.labels) := by
  refine ⟨exStructure_closed, ?_⟩
  intro op h
  simp only [List.mem_cons, List.not_mem_nil, or_false] at h
  rcases h with rfl | rfl | rfl <;> simp [GraphOp.labelsIn, exStructure]

/-- Two different histories with the same resulting edges: the parents of `Y` come out in label order in both. -/
example : ((do let g ← runGraphOps (NetworkGraph.new exStructure) [.addEdges [("Z", "Y"), ("X", "Y")]]
               let g ← g.fastInit "Y"
               return g.derived.map (fun d => d.info.parents)) : Py _) = .ok (some ["X", "Z"]) := by
  decide

/-- **C14** After any history, `has_edge` is membership in the abstract edge set, `get_parents_by_id` lists exactly the
abstract parents, each once, and the `edges` view lists every abstract edge exactly once. -/
theorem graph_is_edge_set (s : Structure) (hs : ClosedStructure s) (ops : List GraphOp)
    (hops : ∀ op ∈ ops, op.labelsIn s.labels) :
    ∃ g, runGraphOps (NetworkGraph.new s) ops = .ok g ∧
      (∀ e, g.hasEdge e = true ↔ ops.foldl (absStep s) (fun _ => False) e) ∧
      (∀ e, e ∈ g.edges ↔ ops.foldl (absStep s) (fun _ => False) e) ∧ g.edges.Nodup ∧
      (∀ n ps, g.getParentsById n = .ok ps →
        ps.Nodup ∧ ∀ l, l ∈ ps ↔ ops.foldl (absStep s) (fun _ => False) (l, n)) ∧
      (∀ n, g.getParentsById n = .error .networkXError ∨ ∃ ps, g.getParentsById n = .ok ps) := by
  obtain ⟨g, h1, h2, h3, h4⟩ := runGraphOps_refines (NetworkGraph.new s) ops (GInv.new hs) hops
  have hempty : (fun e => e ∈ (NetworkGraph.new s).graph.edges) = fun _ => False := by
    funext e; simp [NetworkGraph.new, DiGraph.empty]
  rw [hempty] at h4
  have h4' : ∀ e, e ∈ g.graph.edges ↔ ops.foldl (absStep s) (fun _ => False) e := h4
  refine ⟨g, h1, ?_, ?_, ?_, ?_, ?_⟩
  · intro e; rw [← h4']; simp [NetworkGraph.hasEdge, DiGraph.hasEdge]
  · intro e; rw [← h4']
    simp only [NetworkGraph.edges, DiGraph.edgesView, List.mem_flatMap, List.mem_filter, beq_iff_eq]
    constructor
    · rintro ⟨_, _, he, _⟩; exact he
    · intro he
      obtain ⟨p, hp, hpe⟩ := List.mem_map.1 (h2.endpoints e he).1
      exact ⟨p, hp, he, hpe.symm⟩
  · rw [NetworkGraph.edges, DiGraph.edgesView, List.nodup_flatMap]
    refine ⟨fun p _ => h2.edgesNodup.filter _, ?_⟩
    have := h2.keysNodup
    rw [DiGraph.keys, List.Nodup, List.pairwise_map] at this
    refine this.imp ?_
    intro p q hpq e he1 he2
    simp only [List.mem_filter, beq_iff_eq] at he1 he2
    exact hpq (he1.2.symm.trans he2.2)
  · intro n ps hps
    simp only [NetworkGraph.getParentsById, DiGraph.predecessors] at hps
    split at hps
    · cases hps
      refine ⟨nodup_predecessors h2.edgesNodup n, ?_⟩
      intro l; rw [← h4']; simp
    · cases hps
  · intro n
    simp only [NetworkGraph.getParentsById, DiGraph.predecessors]
    split <;> simp

/-- **C14**, undo: adding edges that were absent and removing them again restores the edge set. -/
theorem add_then_remove_restores (s : Structure) (hs : ClosedStructure s) (ops : List GraphOp)
    (hops : ∀ op ∈ ops, op.labelsIn s.labels) (es : List Edge) (hes : ∀ e ∈ es, e.1 ∈ s.labels ∧ e.2 ∈ s.labels) :
    ∃ g, runGraphOps (NetworkGraph.new s) ops = .ok g ∧
      ((∀ e ∈ es, g.hasEdge e = false) → ∀ e, ((g.addEdges es).removeEdges es).hasEdge e = g.hasEdge e) := by
  obtain ⟨g, h1, h2, h3, h4⟩ := runGraphOps_refines (NetworkGraph.new s) ops (GInv.new hs) hops
  have h3' : g.struct = s := h3
  refine ⟨g, h1, ?_⟩
  intro hab e
  have hI : GInv (g.addEdges es) := h2.addEdges (by rw [h3']; exact hes)
  rw [Bool.eq_iff_iff]
  have e1 : ((g.addEdges es).removeEdges es).hasEdge e = true ↔
      e ∈ ((g.addEdges es).graph.removeEdgesFrom es).edges := decide_eq_true_iff
  have e2 : e ∈ (g.addEdges es).graph.edges ↔ e ∈ g.graph.edges ∨ e ∈ es := DiGraph.mem_addEdgesFrom
  rw [e1, DiGraph.mem_removeEdgesFrom hI.edgesNodup, e2]
  have hg : g.hasEdge e = true ↔ e ∈ g.graph.edges := by simp [NetworkGraph.hasEdge, DiGraph.hasEdge]
  rw [hg]
  constructor
  · rintro ⟨h | h, hn⟩
    · exact h
    · exact absurd h hn
  · intro h
    refine ⟨Or.inl h, fun hm => ?_⟩
    have := hab e hm
    rw [← Bool.not_eq_true, hg] at this
    exact this h

example : (NetworkGraph.new exStructure).hasEdge ("Z", "X") = false ∧
    ((NetworkGraph.new exStructure).addEdges [("Z", "X")]).hasEdge ("Z", "X") = true := by decide

/-- **C80** `remove_node(x)` on a graph after any history that ends with `fast_init`: it succeeds, the node, its incident
edges and its structure entry are gone, every other edge stays, and the derived structures are dropped. -/
theorem graph_remove_node (s : Structure) (hs : ClosedStructure s) (ops : List GraphOp)
    (hops : ∀ op ∈ ops, op.labelsIn s.labels) (n x : Label) (hn : n ∈ s.labels) (hx : x ∈ s.labels) :
    ∃ g g', runGraphOps (NetworkGraph.new s) (ops ++ [.fastInit n]) = .ok g ∧ g.removeNode x = .ok g' ∧
      (∀ e, g'.hasEdge e = true ↔ g.hasEdge e = true ∧ e.1 ≠ x ∧ e.2 ≠ x) ∧
      s.removeNode x = .ok g'.struct ∧ g'.getParentsById x = .error .networkXError ∧ g'.derived = none ∧
      (∀ y, g'.graph.hasNode y = true ↔ g.graph.hasNode y = true ∧ y ≠ x) ∧
      (∀ y, y ≠ x → g'.getNodeIndx y = g.getNodeIndx y ∧ g'.getStatesNumber y = g.getStatesNumber y ∧
        g'.getPositionalNodeIndx y = g.getPositionalNodeIndx y ∧
        g'.getParentsById y = (g.getParentsById y).map (fun ps => ps.filter (fun p => p != x))) ∧
      (∀ y, g.graph.hasNode y = false → g.removeNode y = .error .networkXError) := by
  have hops' : ∀ op ∈ ops ++ [GraphOp.fastInit n], op.labelsIn s.labels := by
    intro op ho
    rcases List.mem_append.1 ho with h | h
    · exact hops op h
    · rw [List.mem_singleton.1 h]; exact hn
  obtain ⟨g0, h1, h2, h3, h4⟩ := runGraphOps_refines (NetworkGraph.new s) ops (GInv.new hs) hops
  have h3' : g0.struct = s := h3
  obtain ⟨g', d, k1, k2, k3, k4, k5, k6, _⟩ := fastInit_spec h2 (n := n) (by rw [h3']; exact hn)
  have hrun : ∀ (g : NetworkGraph) (l : List GraphOp) (g1 : NetworkGraph), runGraphOps g l = .ok g1 →
      runGraphOps g (l ++ [.fastInit n]) = g1.fastInit n := by
    intro g l
    induction l generalizing g with
    | nil =>
      intro g1 h; cases h
      show (g.fastInit n >>= fun g' => Except.ok g') = _
      cases g.fastInit n <;> rfl
    | cons o l ih =>
      intro g1 h
      simp only [runGraphOps, List.cons_append] at h ⊢
      cases ho : o.run g with
      | error e => rw [ho] at h; cases h
      | ok g2 => rw [ho] at h; exact ih g2 g1 h
  have hsx : g'.struct = s := k3.trans h3'
  have hwf : WFStructure g'.struct := k2.cs.toWFStructure
  have hrm := Structure.removeNode_of_mem hwf (x := x) (by rw [hsx]; exact hx)
  have hnode : g'.graph.hasNode x = true := DiGraph.hasNode_iff.2 ((k6 x).2 (by rw [h3']; exact hx))
  refine ⟨g', ⟨⟨g'.struct.labels.eraseIdx (g'.struct.labels.idxOf x), g'.struct.indexes.eraseIdx (g'.struct.labels.idxOf x),
      g'.struct.vals.eraseIdx (g'.struct.labels.idxOf x), g'.struct.edges.filter (fun e => e.1 != x && e.2 != x),
      g'.struct.total⟩, ⟨g'.graph.nodes.filter (fun p => p.1 != x), g'.graph.edges.filter (fun e => e.1 != x && e.2 != x)⟩, none⟩,
    (hrun _ _ _ h1).trans k1, ?_, ?_, ?_, ?_, rfl, ?_, ?_, ?_⟩
  · simp only [NetworkGraph.removeNode, DiGraph.removeNode, hnode, if_true, Except.bind_ok', hrm]
    rfl
  · intro e; simp [NetworkGraph.hasEdge, DiGraph.hasEdge]
  · rw [← hsx]; exact hrm
  · simp [NetworkGraph.getParentsById, DiGraph.predecessors, DiGraph.hasNode]
  · intro y
    simp only [DiGraph.hasNode, decide_eq_true_eq, List.mem_map, List.mem_filter, bne_iff_ne]
    constructor
    · rintro ⟨a, ⟨h1, h2⟩, rfl⟩; exact ⟨⟨a, h1, rfl⟩, h2⟩
    · rintro ⟨⟨a, h1, rfl⟩, h2⟩; exact ⟨a, ⟨h1, h2⟩, rfl⟩
  · intro y hy
    have ha : DiGraph.attr ⟨g'.graph.nodes.filter (fun p => p.1 != x), g'.graph.edges.filter (fun e => e.1 != x && e.2 != x)⟩ y =
        g'.graph.attr y := by
      have : (g'.graph.nodes.filter (fun p => p.1 != x)).lookup y = g'.graph.nodes.lookup y := by
        induction g'.graph.nodes with
        | nil => rfl
        | cons a l ih =>
          rw [List.filter_cons]
          by_cases hax : a.1 = x
          · have hya : (y == a.1) = false := by simpa [hax] using hy
            simp only [hax, bne_self_eq_false, Bool.false_eq_true, if_false]
            rw [ih, List.lookup, hya]
          · simp only [bne_iff_ne.2 hax, if_true]
            rw [List.lookup, List.lookup, ih]
      simp only [DiGraph.attr, this]
    refine ⟨by simp only [NetworkGraph.getNodeIndx, ha], by simp only [NetworkGraph.getStatesNumber, ha],
      by simp only [NetworkGraph.getPositionalNodeIndx, ha], ?_⟩
    have hn : DiGraph.hasNode ⟨g'.graph.nodes.filter (fun p => p.1 != x), g'.graph.edges.filter (fun e => e.1 != x && e.2 != x)⟩ y =
        g'.graph.hasNode y := by
      rw [Bool.eq_iff_iff]
      simp only [DiGraph.hasNode, decide_eq_true_eq, List.mem_map, List.mem_filter, bne_iff_ne]
      constructor
      · rintro ⟨a, ⟨h1, -⟩, rfl⟩; exact ⟨a, h1, rfl⟩
      · rintro ⟨a, h1, rfl⟩; exact ⟨a, ⟨h1, hy⟩, rfl⟩
    simp only [NetworkGraph.getParentsById, DiGraph.predecessors, hn]
    split
    · show Except.ok _ = Except.ok _
      congr 1
      dsimp only
      rw [List.filter_filter, List.filter_map, List.filter_filter]
      congr 1
      apply List.filter_congr
      intro e _
      show (e.2 == y && (e.1 != x && e.2 != x)) = ((e.1 != x) && (e.2 == y))
      by_cases he : e.2 = y
      · subst he; simp [hy]
      · rw [beq_eq_false_iff_ne.2 he, Bool.false_and, Bool.and_false]
    · rfl
  · intro y hy
    simp [NetworkGraph.removeNode, DiGraph.removeNode, hy]

example : ∃ g', ((do let g ← (NetworkGraph.new exStructure).fastInit "X"; g.removeNode "Y") : Py _) = .ok g' ∧
    g'.edges = [] ∧ g'.struct.labels = ["X", "Z"] := ⟨_, rfl, rfl, rfl⟩

end PyCTBN
