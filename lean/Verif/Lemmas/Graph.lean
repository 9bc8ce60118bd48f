import Verif.Spec.Graph
import Verif.Lemmas.Structure
import Mathlib.Data.List.Nodup

namespace PyCTBN
open Spec

namespace DiGraph

/-- node labels -/
def keys (g : DiGraph) : List Label := g.nodes.map Prod.fst

theorem hasNode_iff {g : DiGraph} {l : Label} : g.hasNode l = true ↔ l ∈ g.keys := by
  simp [hasNode, keys]

@[simp] theorem touch_edges (g : DiGraph) (l : Label) : (g.touch l).edges = g.edges := by
  unfold touch; split <;> rfl

theorem mem_touch_keys {g : DiGraph} {l l' : Label} : l' ∈ (g.touch l).keys ↔ l' ∈ g.keys ∨ l' = l := by
  unfold touch
  by_cases h : l ∈ g.keys
  · rw [if_pos (hasNode_iff.2 h)]
    constructor
    · exact Or.inl
    · rintro (h' | rfl) <;> assumption
  · rw [if_neg (by rw [hasNode_iff]; exact h)]
    simp [keys]

theorem touch_nodup {g : DiGraph} {l : Label} (h : g.keys.Nodup) : (g.touch l).keys.Nodup := by
  unfold touch
  by_cases hl : l ∈ g.keys
  · rw [if_pos (hasNode_iff.2 hl)]; exact h
  · rw [if_neg (by rw [hasNode_iff]; exact hl)]
    simp only [keys, List.map_append, List.map_cons, List.map_nil]
    exact List.Nodup.append h (by simp) (by simpa [keys] using hl)

theorem setNode_edges (g : DiGraph) (l : Label) (a : NodeAttr) : (g.setNode l a).edges = g.edges := by
  unfold setNode; split <;> rfl

theorem setNode_keys_of_mem {g : DiGraph} {l : Label} {a : NodeAttr} (h : l ∈ g.keys) :
    (g.setNode l a).keys = g.keys := by
  unfold setNode
  rw [if_pos (hasNode_iff.2 h)]
  simp only [keys, List.map_map]
  apply List.map_congr_left
  intro p _
  simp only [Function.comp]
  split
  · rename_i h; exact h.symm
  · rfl

theorem setNode_keys_of_not_mem {g : DiGraph} {l : Label} {a : NodeAttr} (h : l ∉ g.keys) :
    (g.setNode l a).keys = g.keys ++ [l] := by
  unfold setNode
  rw [if_neg (by rw [hasNode_iff]; exact h)]
  simp [keys]

theorem mem_setNode_keys {g : DiGraph} {l l' : Label} {a : NodeAttr} :
    l' ∈ (g.setNode l a).keys ↔ l' ∈ g.keys ∨ l' = l := by
  by_cases h : l ∈ g.keys
  · rw [setNode_keys_of_mem h]
    constructor
    · exact Or.inl
    · rintro (h' | rfl) <;> assumption
  · rw [setNode_keys_of_not_mem h]; simp

theorem setNode_nodup {g : DiGraph} {l : Label} {a : NodeAttr} (h : g.keys.Nodup) :
    (g.setNode l a).keys.Nodup := by
  by_cases hl : l ∈ g.keys
  · rw [setNode_keys_of_mem hl]; exact h
  · rw [setNode_keys_of_not_mem hl]
    exact List.Nodup.append h (by simp) (by simpa using hl)

theorem lookup_append_new (ns : List (Label × Option NodeAttr)) (l l' : Label) (v : Option NodeAttr)
    (h : l ∉ ns.map Prod.fst) :
    (ns ++ [(l, v)]).lookup l' = if l' = l then some v else ns.lookup l' := by
  induction ns with
  | nil => by_cases hl : l' = l <;> simp [List.lookup, hl]
           · have : (l' == l) = false := by simpa using hl
             simp [this]
  | cons p ns ih =>
    obtain ⟨k, w⟩ := p
    simp only [List.map_cons, List.mem_cons, not_or] at h
    have := ih h.2
    simp only [List.cons_append, List.lookup_cons]
    by_cases hk : l' = k
    · subst hk; simp [Ne.symm h.1]
    · have hb : (l' == k) = false := by simpa using hk
      simp only [hb]; exact this

theorem lookup_map_set (ns : List (Label × Option NodeAttr)) (l l' : Label) (a : NodeAttr)
    (h : l ∈ ns.map Prod.fst) :
    (ns.map (fun p => if p.1 = l then (l, some a) else p)).lookup l'
      = if l' = l then some (some a) else ns.lookup l' := by
  induction ns with
  | nil => simp at h
  | cons p ns ih =>
    obtain ⟨k, w⟩ := p
    by_cases hk : k = l
    · subst hk
      simp only [List.map_cons, if_true, List.lookup_cons]
      by_cases hl : l' = k
      · subst hl; simp
      · have hb : (l' == k) = false := by simpa using hl
        simp only [hb, hl, if_false]
        by_cases hm : k ∈ ns.map Prod.fst
        · rw [ih hm]; simp [hl]
        · have : ns.map (fun p => if p.1 = k then (k, some a) else p) = ns := by
            conv_rhs => rw [← List.map_id ns]
            apply List.map_congr_left
            intro q hq
            have : q.1 ≠ k := by rintro rfl; exact hm (List.mem_map_of_mem hq)
            simp [this]
          rw [this]
    · have hm : l ∈ ns.map Prod.fst := by simpa [Ne.symm hk] using h
      simp only [List.map_cons, hk, if_false, List.lookup_cons]
      by_cases hl : l' = k
      · subst hl; simp [hk]
      · have hb : (l' == k) = false := by simpa using hl
        simp only [hb]; exact ih hm

theorem setNode_lookup (g : DiGraph) (l l' : Label) (a : NodeAttr) :
    (g.setNode l a).nodes.lookup l' = if l' = l then some (some a) else g.nodes.lookup l' := by
  unfold setNode
  by_cases h : l ∈ g.keys
  · rw [if_pos (hasNode_iff.2 h)]; exact lookup_map_set _ _ _ _ h
  · rw [if_neg (by rw [hasNode_iff]; exact h)]; exact lookup_append_new _ _ _ _ h

theorem touch_lookup_of_mem {g : DiGraph} {l l' : Label} (h : l' ∈ g.keys) :
    (g.touch l).nodes.lookup l' = g.nodes.lookup l' := by
  unfold touch
  by_cases hl : l ∈ g.keys
  · rw [if_pos (hasNode_iff.2 hl)]
  · rw [if_neg (by rw [hasNode_iff]; exact hl)]
    simp only
    rw [lookup_append_new _ _ _ _ hl]
    have : l' ≠ l := by rintro rfl; exact hl h
    simp [this]

theorem mem_addEdge {g : DiGraph} {e f : Edge} : f ∈ (g.addEdge e).edges ↔ f ∈ g.edges ∨ f = e := by
  unfold addEdge
  simp only [touch_edges]
  split
  · rename_i h
    simp only [touch_edges]
    constructor
    · exact Or.inl
    · rintro (h' | rfl) <;> assumption
  · simp

theorem addEdge_nodup {g : DiGraph} {e : Edge} (h : g.edges.Nodup) : (g.addEdge e).edges.Nodup := by
  unfold addEdge
  simp only [touch_edges]
  split
  · simpa using h
  · rename_i he
    exact List.Nodup.append h (by simp) (by simpa using he)

theorem addEdge_keys {g : DiGraph} {e : Edge} : (g.addEdge e).keys = ((g.touch e.1).touch e.2).keys := by
  unfold addEdge; simp only; split <;> rfl

theorem addEdge_nodes {g : DiGraph} {e : Edge} : (g.addEdge e).nodes = ((g.touch e.1).touch e.2).nodes := by
  unfold addEdge; simp only; split <;> rfl

theorem mem_addEdge_keys {g : DiGraph} {e : Edge} {l : Label} :
    l ∈ (g.addEdge e).keys ↔ l ∈ g.keys ∨ l = e.1 ∨ l = e.2 := by
  rw [addEdge_keys, mem_touch_keys, mem_touch_keys, or_assoc]

theorem mem_addEdgesFrom {g : DiGraph} {es : List Edge} {f : Edge} :
    f ∈ (g.addEdgesFrom es).edges ↔ f ∈ g.edges ∨ f ∈ es := by
  induction es generalizing g with
  | nil => simp [addEdgesFrom]
  | cons e es ih =>
    have : g.addEdgesFrom (e :: es) = (g.addEdge e).addEdgesFrom es := rfl
    rw [this, ih, mem_addEdge]; simp [or_assoc]

theorem addEdgesFrom_nodup {g : DiGraph} {es : List Edge} (h : g.edges.Nodup) : (g.addEdgesFrom es).edges.Nodup := by
  induction es generalizing g with
  | nil => exact h
  | cons e es ih => exact ih (addEdge_nodup h)

theorem addEdgesFrom_keys_nodup {g : DiGraph} {es : List Edge} (h : g.keys.Nodup) : (g.addEdgesFrom es).keys.Nodup := by
  induction es generalizing g with
  | nil => exact h
  | cons e es ih => exact ih (by rw [addEdge_keys]; exact touch_nodup (touch_nodup h))

theorem mem_addEdgesFrom_keys {g : DiGraph} {es : List Edge} {l : Label} :
    l ∈ (g.addEdgesFrom es).keys ↔ l ∈ g.keys ∨ ∃ e ∈ es, l = e.1 ∨ l = e.2 := by
  induction es generalizing g with
  | nil => simp [addEdgesFrom]
  | cons e es ih =>
    have : g.addEdgesFrom (e :: es) = (g.addEdge e).addEdgesFrom es := rfl
    rw [this, ih, mem_addEdge_keys]; simp [or_assoc]

theorem addEdgesFrom_lookup {g : DiGraph} {es : List Edge} {l : Label} (h : l ∈ g.keys) :
    (g.addEdgesFrom es).nodes.lookup l = g.nodes.lookup l := by
  induction es generalizing g with
  | nil => rfl
  | cons e es ih =>
    have : g.addEdgesFrom (e :: es) = (g.addEdge e).addEdgesFrom es := rfl
    rw [this, ih (mem_addEdge_keys.2 (Or.inl h)), addEdge_nodes, touch_lookup_of_mem (mem_touch_keys.2 (Or.inl h)),
      touch_lookup_of_mem h]

theorem mem_removeEdgesFrom {g : DiGraph} {es : List Edge} {f : Edge} (h : g.edges.Nodup) :
    f ∈ (g.removeEdgesFrom es).edges ↔ f ∈ g.edges ∧ f ∉ es := by
  unfold removeEdgesFrom
  simp only
  generalize g.edges = l at h
  induction es generalizing l with
  | nil => simp
  | cons e es ih =>
    simp only [List.foldl_cons]
    rw [ih _ (h.erase e), h.mem_erase_iff]; simp; tauto

theorem removeEdgesFrom_nodup {g : DiGraph} {es : List Edge} (h : g.edges.Nodup) : (g.removeEdgesFrom es).edges.Nodup := by
  unfold removeEdgesFrom
  simp only
  generalize g.edges = l at h
  induction es generalizing l with
  | nil => exact h
  | cons e es ih => exact ih _ (h.erase e)

end DiGraph

/-- Invariant of the graphs built by the library: everything refers to labels of the structure, nothing is repeated. -/
structure GInv (g : NetworkGraph) : Prop where
  cs : ClosedStructure g.struct
  edgesClosed : ∀ e ∈ g.graph.edges, e.1 ∈ g.struct.labels ∧ e.2 ∈ g.struct.labels
  edgesNodup : g.graph.edges.Nodup
  keysNodup : g.graph.keys.Nodup
  keysSub : ∀ l ∈ g.graph.keys, l ∈ g.struct.labels
  endpoints : ∀ e ∈ g.graph.edges, e.1 ∈ g.graph.keys ∧ e.2 ∈ g.graph.keys

theorem GInv.new {s : Structure} (h : ClosedStructure s) : GInv (NetworkGraph.new s) := by
  refine ⟨h, ?_, ?_, ?_, ?_, ?_⟩ <;> simp [NetworkGraph.new, DiGraph.empty, DiGraph.keys]

theorem GInv.addEdges {g : NetworkGraph} (h : GInv g) {es : List Edge}
    (hes : ∀ e ∈ es, e.1 ∈ g.struct.labels ∧ e.2 ∈ g.struct.labels) : GInv (g.addEdges es) := by
  refine ⟨h.cs, ?_, DiGraph.addEdgesFrom_nodup h.edgesNodup, DiGraph.addEdgesFrom_keys_nodup h.keysNodup, ?_, ?_⟩
  · intro e he
    rcases DiGraph.mem_addEdgesFrom.1 he with h1 | h1
    · exact h.edgesClosed e h1
    · exact hes e h1
  · intro l hl
    rcases DiGraph.mem_addEdgesFrom_keys.1 hl with h1 | ⟨e, he, rfl | rfl⟩
    · exact h.keysSub l h1
    · exact (hes e he).1
    · exact (hes e he).2
  · intro e he
    rcases DiGraph.mem_addEdgesFrom.1 he with h1 | h1
    · exact ⟨DiGraph.mem_addEdgesFrom_keys.2 (Or.inl (h.endpoints e h1).1),
        DiGraph.mem_addEdgesFrom_keys.2 (Or.inl (h.endpoints e h1).2)⟩
    · exact ⟨DiGraph.mem_addEdgesFrom_keys.2 (Or.inr ⟨e, h1, Or.inl rfl⟩),
        DiGraph.mem_addEdgesFrom_keys.2 (Or.inr ⟨e, h1, Or.inr rfl⟩)⟩

theorem GInv.removeEdges {g : NetworkGraph} (h : GInv g) (es : List Edge) : GInv (g.removeEdges es) := by
  have hm : ∀ e, e ∈ (g.removeEdges es).graph.edges → e ∈ g.graph.edges := fun e he =>
    ((DiGraph.mem_removeEdgesFrom h.edgesNodup).1 he).1
  exact ⟨h.cs, fun e he => h.edgesClosed e (hm e he), DiGraph.removeEdgesFrom_nodup h.edgesNodup, h.keysNodup,
    h.keysSub, fun e he => h.endpoints e (hm e he)⟩

/-- folding `setNode` over rows with distinct labels -/
theorem foldl_setNode (rows : List ((Label × Nat × Nat) × Nat)) (gr : DiGraph)
    (hnd : (rows.map (fun t => t.1.1)).Nodup) :
    let gr' := rows.foldl (fun gr t => gr.setNode t.1.1 ⟨t.1.2.1, t.1.2.2, t.2⟩) gr
    gr'.edges = gr.edges ∧ (gr.keys.Nodup → gr'.keys.Nodup) ∧
      (∀ l, l ∈ gr'.keys ↔ l ∈ gr.keys ∨ l ∈ rows.map (fun t => t.1.1)) ∧
      (∀ t ∈ rows, gr'.nodes.lookup t.1.1 = some (some ⟨t.1.2.1, t.1.2.2, t.2⟩)) ∧
      (∀ l, l ∉ rows.map (fun t => t.1.1) → gr'.nodes.lookup l = gr.nodes.lookup l) := by
  induction rows generalizing gr with
  | nil => simp
  | cons t rows ih =>
    simp only [List.map_cons, List.nodup_cons] at hnd
    obtain ⟨h1, h2, h3, h4, h5⟩ := ih (gr.setNode t.1.1 ⟨t.1.2.1, t.1.2.2, t.2⟩) hnd.2
    simp only [List.foldl_cons]
    refine ⟨h1.trans (DiGraph.setNode_edges _ _ _), fun hk => h2 (DiGraph.setNode_nodup hk), ?_, ?_, ?_⟩
    · intro l; rw [h3, DiGraph.mem_setNode_keys]; simp [or_assoc]
    · intro u hu
      rcases List.mem_cons.1 hu with rfl | hu
      · rw [h5 _ hnd.1, DiGraph.setNode_lookup]; simp
      · exact h4 u hu
    · intro l hl
      simp only [List.map_cons, List.mem_cons, not_or] at hl
      rw [h5 _ hl.2, DiGraph.setNode_lookup]; simp [hl.1]

theorem zipIdx_zip_getElem {labels : List Label} {idx vals : List Nat} (hi : idx.length = labels.length)
    (hv : vals.length = labels.length) (k : Nat) (hk : k < labels.length) :
    ((labels[k], idx[k], vals[k]), k) ∈ (labels.zip (idx.zip vals)).zipIdx := by
  rw [List.mem_zipIdx_iff_getElem?]
  rw [List.getElem?_eq_getElem (by simp; omega)]
  simp

theorem map_fst_rows {labels : List Label} {idx vals : List Nat} (hi : idx.length = labels.length)
    (hv : vals.length = labels.length) :
    ((labels.zip (idx.zip vals)).zipIdx).map (fun t => t.1.1) = labels := by
  have : (fun t : (Label × Nat × Nat) × Nat => t.1.1) = Prod.fst ∘ Prod.fst := rfl
  rw [this, ← List.map_map, List.zipIdx_map_fst, List.map_fst_zip]
  simp; omega

/-- State of the graph right after the `add_nodes`/`add_edges` calls at the head of `fast_init`. -/
theorem fastInit_prepare {g : NetworkGraph} (h : GInv g) :
    let g2 := (g.addNodes g.struct.labels).addEdges g.struct.edges
    GInv g2 ∧ g2.struct = g.struct ∧
      (∀ e, e ∈ g2.graph.edges ↔ e ∈ g.graph.edges ∨ e ∈ g.struct.edges) ∧
      (∀ l, l ∈ g2.graph.keys ↔ l ∈ g.struct.labels) ∧
      (∀ l ∈ g.struct.labels, g2.getNodeIndx l = g.struct.getNodeIndx l ∧
        g2.getStatesNumber l = g.struct.getStatesNumber l) := by
  have hrows := map_fst_rows h.cs.idxLen h.cs.valLen
  have hnd : (((g.struct.labels.zip (g.struct.indexes.zip g.struct.vals)).zipIdx).map (fun t => t.1.1)).Nodup := by
    rw [hrows]; exact h.cs.nodup
  obtain ⟨f1, f2, f3, f4, f5⟩ := foldl_setNode _ g.graph hnd
  rw [hrows] at f3 f5
  have hA : GInv (g.addNodes g.struct.labels) := by
    refine ⟨h.cs, ?_, ?_, f2 h.keysNodup, ?_, ?_⟩
    · intro e he; simp only [NetworkGraph.addNodes] at he; rw [f1] at he; exact h.edgesClosed e he
    · simp only [NetworkGraph.addNodes]; rw [f1]; exact h.edgesNodup
    · intro l hl
      rcases (f3 l).1 hl with h1 | h1
      · exact h.keysSub l h1
      · exact h1
    · intro e he
      simp only [NetworkGraph.addNodes] at he ⊢
      rw [f1] at he
      exact ⟨(f3 _).2 (Or.inl (h.endpoints e he).1), (f3 _).2 (Or.inl (h.endpoints e he).2)⟩
  refine ⟨hA.addEdges h.cs.closed, rfl, ?_, ?_, ?_⟩
  · intro e
    have : ((g.addNodes g.struct.labels).addEdges g.struct.edges).graph
      = (g.addNodes g.struct.labels).graph.addEdgesFrom g.struct.edges := rfl
    rw [this, DiGraph.mem_addEdgesFrom]
    simp only [NetworkGraph.addNodes]; rw [f1]
  · intro l
    constructor
    · intro hl; exact (hA.addEdges h.cs.closed).keysSub l hl
    · intro hl
      exact DiGraph.mem_addEdgesFrom_keys.2 (Or.inl ((f3 l).2 (Or.inr hl)))
  · intro l hl
    have hk : g.struct.labels.idxOf l < g.struct.labels.length := List.idxOf_lt_length_of_mem hl
    have hrow := f4 _ (zipIdx_zip_getElem h.cs.idxLen h.cs.valLen _ hk)
    have hlook : ((g.addNodes g.struct.labels).addEdges g.struct.edges).graph.nodes.lookup l
        = some (some ⟨g.struct.indexes[g.struct.labels.idxOf l]'(by rw [h.cs.idxLen]; exact hk),
            g.struct.vals[g.struct.labels.idxOf l]'(by rw [h.cs.valLen]; exact hk), g.struct.labels.idxOf l⟩) := by
      have e1 := DiGraph.addEdgesFrom_lookup (g := (g.addNodes g.struct.labels).graph) (es := g.struct.edges)
        (l := l) ((f3 l).2 (Or.inr hl))
      refine e1.trans ?_
      simpa [NetworkGraph.addNodes] using hrow
    constructor
    · simp only [NetworkGraph.getNodeIndx, DiGraph.attr, hlook]
      simp only [Structure.getNodeIndx, pyIndex_of_mem hl, Except.bind_ok']
      rw [pyGet_of_lt (by rw [h.cs.idxLen]; exact hk)]
      rfl
    · simp only [NetworkGraph.getStatesNumber, DiGraph.attr, hlook]
      simp only [Structure.getStatesNumber, pyIndex_of_mem hl, Except.bind_ok']
      rw [pyGet_of_lt (by rw [h.cs.valLen]; exact hk)]
      rfl

theorem mapM_ok_of_forall {α β} (f : α → Py β) (l : List α) (h : ∀ a ∈ l, ∃ b, f a = .ok b) :
    ∃ bs, l.mapM f = .ok bs ∧ bs.map Except.ok = l.map f := by
  induction l with
  | nil => exact ⟨[], rfl, rfl⟩
  | cons a l ih =>
    obtain ⟨b, hb⟩ := h a (by simp)
    obtain ⟨bs, h1, h2⟩ := ih (fun x hx => h x (by simp [hx]))
    exact ⟨b :: bs, by simp [List.mapM_cons, hb, h1], by simp [hb, h2]⟩

theorem mapM_congr_py {α β} {f f' : α → Py β} {l : List α} (h : ∀ a ∈ l, f a = f' a) : l.mapM f = l.mapM f' := by
  induction l with
  | nil => rfl
  | cons a l ih =>
    simp only [List.mapM_cons]
    rw [h a (by simp), ih (fun x hx => h x (by simp [hx]))]

/-- Sorting the parents by label position is the same as filtering the label list. -/
theorem sort_parents_eq_filter {labels parents : List Label} (hnd : labels.Nodup) (hp : parents.Nodup)
    (hsub : ∀ p ∈ parents, p ∈ labels) :
    parents.insertionSort (fun a b => labels.idxOf a ≤ labels.idxOf b)
      = labels.filter (fun l => decide (l ∈ parents)) := by
  have hperm : (parents.insertionSort (fun a b => labels.idxOf a ≤ labels.idxOf b)).Perm
      (labels.filter (fun l => decide (l ∈ parents))) := by
    refine (List.perm_insertionSort _ _).trans ?_
    refine (List.perm_ext_iff_of_nodup hp (hnd.filter _)).2 ?_
    intro a; simp only [List.mem_filter, decide_eq_true_eq]
    exact ⟨fun h => ⟨hsub a h, h⟩, fun h => h.2⟩
  refine List.Perm.eq_of_pairwise (le := fun a b => labels.idxOf a ≤ labels.idxOf b) ?_ ?_ ?_ hperm
  · intro a b ha hb h1 h2
    have ha' : a ∈ labels := hsub a ((List.perm_insertionSort _ _).mem_iff.1 ha)
    have : labels.idxOf a = labels.idxOf b := le_antisymm h1 h2
    exact (List.idxOf_inj ha').1 this
  · haveI : Std.Total (fun a b : Label => labels.idxOf a ≤ labels.idxOf b) := ⟨fun a b => by omega⟩
    haveI : IsTrans Label (fun a b : Label => labels.idxOf a ≤ labels.idxOf b) := ⟨fun a b c => by omega⟩
    exact List.pairwise_insertionSort _ parents
  · refine List.Pairwise.sublist List.filter_sublist ?_
    rw [List.pairwise_iff_getElem]
    intro i j hi hj hij
    rw [hnd.idxOf_getElem i hi, hnd.idxOf_getElem j hj]; omega

theorem nodup_predecessors {es : List Edge} (h : es.Nodup) (n : Label) :
    ((es.filter (fun e => e.2 == n)).map Prod.fst).Nodup := by
  refine (List.nodup_map_iff_inj_on (h.filter _)).2 ?_
  intro a ha b hb hab
  simp only [List.mem_filter, beq_iff_eq] at ha hb
  exact Prod.ext hab (ha.2.trans hb.2.symm)

/-- Closed form of what `fast_init` computes, given the node's own cardinality and index and the parents'. -/
structure DerivedFor (s : Structure) (present : Edge → Prop) (n : Label) (d : Derived) : Prop where
  parents_mem : ∀ l, l ∈ d.info.parents ↔ present (l, n)
  parents_sub : d.info.parents.Sublist s.labels
  indxs : d.info.indxs.map Except.ok = d.info.parents.map s.getNodeIndx
  vals : d.info.vals.map Except.ok = d.info.parents.map s.getStatesNumber
  nodeData : ∃ c i, s.getStatesNumber n = .ok c ∧ s.getNodeIndx n = .ok i ∧
    d.timeIdx = buildTimeScalarIndexing c d.info.vals ∧ d.transIdx = buildTransitionScalarIndexing c d.info.vals ∧
    d.timeFilter = buildTimeColumnsFiltering i d.info.indxs ∧
    d.transFilter = buildTransitionFiltering i d.info.indxs s.total ∧ d.pCombs = buildPCombs d.info.vals

theorem fastInit_spec {g : NetworkGraph} (h : GInv g) {n : Label} (hn : n ∈ g.struct.labels) :
    ∃ g' d, g.fastInit n = .ok g' ∧ GInv g' ∧ g'.struct = g.struct ∧ g'.derived = some d ∧
      (∀ e, e ∈ g'.graph.edges ↔ e ∈ g.graph.edges ∨ e ∈ g.struct.edges) ∧
      (∀ l, l ∈ g'.graph.keys ↔ l ∈ g.struct.labels) ∧
      (∀ l ∈ g.struct.labels, g'.getNodeIndx l = g.struct.getNodeIndx l ∧
        g'.getStatesNumber l = g.struct.getStatesNumber l) ∧
      d.info.parents = g.struct.labels.filter
        (fun l => decide ((l, n) ∈ g.graph.edges ∨ (l, n) ∈ g.struct.edges)) ∧
      DerivedFor g.struct (fun e => e ∈ g.graph.edges ∨ e ∈ g.struct.edges) n d := by
  obtain ⟨hI, hs, he, hk, ha⟩ := fastInit_prepare h
  set g2 := (g.addNodes g.struct.labels).addEdges g.struct.edges with hg2
  have hnode : g2.graph.hasNode n = true := DiGraph.hasNode_iff.2 ((hk n).2 hn)
  have hpred : g2.getParentsById n = .ok ((g2.graph.edges.filter (fun e => e.2 == n)).map Prod.fst) := by
    simp [NetworkGraph.getParentsById, DiGraph.predecessors, hnode]
  have hpm : ∀ l, l ∈ ((g2.graph.edges.filter (fun e => e.2 == n)).map Prod.fst) ↔ (l, n) ∈ g2.graph.edges := by
    intro l; simp
  have hall : ((g2.graph.edges.filter (fun e => e.2 == n)).map Prod.fst).all
      (fun p => decide (p ∈ g2.struct.labels)) = true := by
    rw [List.all_eq_true]; intro p hp
    have := (hI.edgesClosed _ ((hpm p).1 hp)).1
    simpa using this
  have hsort := sort_parents_eq_filter (labels := g2.struct.labels) hI.cs.nodup
    (nodup_predecessors hI.edgesNodup n) (fun p hp => (hI.edgesClosed _ ((hpm p).1 hp)).1)
  have hfil : g2.struct.labels.filter
      (fun l => decide (l ∈ ((g2.graph.edges.filter (fun e => e.2 == n)).map Prod.fst)))
      = g.struct.labels.filter (fun l => decide ((l, n) ∈ g.graph.edges ∨ (l, n) ∈ g.struct.edges)) := by
    rw [hs]; apply List.filter_congr; intro l _
    rw [decide_eq_decide, hpm, he]
  rw [hfil] at hsort
  set P := g.struct.labels.filter (fun l => decide ((l, n) ∈ g.graph.edges ∨ (l, n) ∈ g.struct.edges)) with hP
  have hPsub : ∀ p ∈ P, p ∈ g.struct.labels := fun p hp => (List.mem_filter.1 hp).1
  have hidx : ∀ p ∈ P, ∃ b, g.struct.getNodeIndx p = .ok b := fun p hp => by
    obtain ⟨v, _, hv⟩ := lookupPos_mem (vals := g.struct.indexes) (hPsub p hp) h.cs.idxLen; exact ⟨v, hv⟩
  have hval : ∀ p ∈ P, ∃ b, g.struct.getStatesNumber p = .ok b := fun p hp => by
    obtain ⟨v, _, hv⟩ := lookupPos_mem (vals := g.struct.vals) (hPsub p hp) h.cs.valLen; exact ⟨v, hv⟩
  obtain ⟨is, hi1, hi2⟩ := mapM_ok_of_forall _ P hidx
  obtain ⟨vs, hv1, hv2⟩ := mapM_ok_of_forall _ P hval
  have hi1' : P.mapM g2.getNodeIndx = .ok is := by
    rw [mapM_congr_py (fun p hp => (ha p (hPsub p hp)).1)]; exact hi1
  have hv1' : P.mapM g2.getStatesNumber = .ok vs := by
    rw [mapM_congr_py (fun p hp => (ha p (hPsub p hp)).2)]; exact hv1
  obtain ⟨c, _, hc⟩ := lookupPos_mem (vals := g.struct.vals) hn h.cs.valLen
  obtain ⟨i, _, hi⟩ := lookupPos_mem (vals := g.struct.indexes) hn h.cs.idxLen
  have hord : g2.getOrderedParents n = .ok ⟨P, is, vs⟩ := by
    simp only [NetworkGraph.getOrderedParents, hpred, Except.bind_ok', hall, if_true, hsort, hi1', hv1']
    rfl
  let D : Derived := ⟨⟨P, is, vs⟩, buildTimeScalarIndexing c vs, buildTransitionScalarIndexing c vs,
    buildTimeColumnsFiltering i is, buildTransitionFiltering i is g.struct.total, buildPCombs vs⟩
  have hfi : g.fastInit n = .ok ⟨g2.struct, g2.graph, some D⟩ := by
    have hunf : g.fastInit n = (g2.getOrderedParents n >>= fun info => g2.getStatesNumber n >>= fun ns =>
        g2.getNodeIndx n >>= fun ni => Except.ok ⟨g2.struct, g2.graph, some ⟨info,
          buildTimeScalarIndexing ns info.vals, buildTransitionScalarIndexing ns info.vals,
          buildTimeColumnsFiltering ni info.indxs, buildTransitionFiltering ni info.indxs g2.struct.total,
          buildPCombs info.vals⟩⟩) := rfl
    have e1 : g2.getStatesNumber n = .ok c := (ha n hn).2.trans hc
    have e2 : g2.getNodeIndx n = .ok i := (ha n hn).1.trans hi
    rw [hunf, hord, e1, e2]
    rfl
  refine ⟨_, _, hfi, ⟨hI.cs, hI.edgesClosed, hI.edgesNodup, hI.keysNodup, hI.keysSub, hI.endpoints⟩, hs, rfl, he, hk, ha,
    rfl, ?_⟩
  refine ⟨?_, List.filter_sublist, hi2, hv2, ⟨c, i, hc, hi, rfl, rfl, rfl, rfl, rfl⟩⟩
  intro l
  show l ∈ P ↔ _
  rw [hP, List.mem_filter, decide_eq_true_eq]
  constructor
  · exact fun h => h.2
  · intro hl
    refine ⟨?_, hl⟩
    rcases hl with hl | hl
    · exact (h.edgesClosed _ hl).1
    · exact (h.cs.closed _ hl).1

end PyCTBN
