import Verif.Model.HalfInit
import Verif.Props.HeapShare

/-!
# C228: a `fast_init` that raises
-/

namespace PyCTBN
open Spec

/-- The label has occurred as an end of an edge given to the graph. -/
def Mentioned (s : Structure) (ops : List GraphOp) (n : Label) : Prop :=
  (∃ e ∈ s.edges, n = e.1 ∨ n = e.2) ∧ (∃ m, GraphOp.fastInit m ∈ ops) ∨ ∃ es, GraphOp.addEdges es ∈ ops ∧ ∃ e ∈ es, n = e.1 ∨ n = e.2

namespace GraphMembers

/-- What the members computed for a node are: those of a graph that has just been built. -/
def Shows (o : GraphMembers) (d : Derived) : Prop :=
  o.info = some d.info ∧ o.timeIdx = some d.timeIdx ∧ o.transIdx = some d.transIdx ∧ o.timeFilter = some d.timeFilter ∧ o.transFilter = some d.transFilter ∧
    o.pCombs = some d.pCombs

/-- The members other than graph, structure and parent information. -/
def tables (o : GraphMembers) : Option (List Nat) × Option (List Nat) × Option (List Nat) × Option (List Nat) × Option (List (List Nat)) :=
  (o.timeIdx, o.transIdx, o.timeFilter, o.transFilter, o.pCombs)

/-- The statement-by-statement model refines the one of `Model/Graph.lean`. -/
theorem fastInit_refines (o : GraphMembers) (n : Label) :
    (∀ g', o.base.fastInit n = .ok g' → ∃ d, g'.derived = some d ∧ (o.fastInit n).2 = none ∧ (o.fastInit n).1.Shows d ∧ (o.fastInit n).1.graph = g'.graph) ∧
    (∀ e, o.base.fastInit n = .error e → (o.fastInit n).2 = some e ∧ (o.fastInit n).1.tables = o.tables) := by
  set g2 := (o.base.addNodes o.struct.labels).addEdges o.struct.edges with hg2
  have hunf : o.base.fastInit n = (g2.getOrderedParents n >>= fun info => g2.getStatesNumber n >>= fun ns =>
      g2.getNodeIndx n >>= fun ni => Except.ok ⟨g2.struct, g2.graph, some ⟨info,
        buildTimeScalarIndexing ns info.vals, buildTransitionScalarIndexing ns info.vals,
        buildTimeColumnsFiltering ni info.indxs, buildTransitionFiltering ni info.indxs g2.struct.total,
        buildPCombs info.vals⟩⟩) := rfl
  rw [hunf]
  have hfi : o.fastInit n = (match g2.getOrderedParents n with
    | .error e => ({ o with graph := g2.graph }, some e)
    | .ok info =>
      match g2.getStatesNumber n with
      | .error e => ({ o with graph := g2.graph, info := some info }, some e)
      | .ok nodeStates =>
        match g2.getNodeIndx n with
        | .error e => ({ o with graph := g2.graph, info := some info }, some e)
        | .ok nodeIndx =>
          (⟨o.struct, g2.graph, some info, some (buildTimeScalarIndexing nodeStates info.vals), some (buildTransitionScalarIndexing nodeStates info.vals),
            some (buildTimeColumnsFiltering nodeIndx info.indxs), some (buildTransitionFiltering nodeIndx info.indxs o.struct.total),
            some (buildPCombs info.vals)⟩, none)) := rfl
  rw [hfi]
  have hst : g2.struct = o.struct := by
    show ((o.base.addNodes o.struct.labels).addEdges o.struct.edges).struct = o.struct
    rfl
  cases h1 : g2.getOrderedParents n with
  | error e => exact ⟨fun g' h => (by cases h), fun e' h => by cases h; exact ⟨rfl, rfl⟩⟩
  | ok info =>
    cases h2 : g2.getStatesNumber n with
    | error e => exact ⟨fun g' h => (by cases h), fun e' h => by cases h; exact ⟨rfl, rfl⟩⟩
    | ok ns =>
      cases h3 : g2.getNodeIndx n with
      | error e => exact ⟨fun g' h => (by cases h), fun e' h => by cases h; exact ⟨rfl, rfl⟩⟩
      | ok ni =>
        refine ⟨fun g' h => ?_, fun e' h => by cases h⟩
        cases h
        exact ⟨_, rfl, rfl, ⟨rfl, rfl, rfl, rfl, rfl, rfl⟩, rfl⟩

theorem fastInit_struct (o : GraphMembers) (n : Label) : (o.fastInit n).1.struct = o.struct := by
  unfold fastInit
  dsimp only
  split
  · rfl
  · split
    · rfl
    · split <;> rfl

theorem fastInit_graph (o : GraphMembers) (n : Label) : (o.fastInit n).1.graph = ((o.base.addNodes o.struct.labels).addEdges o.struct.edges).graph := by
  unfold fastInit
  dsimp only
  split
  · rfl
  · split
    · rfl
    · split <;> rfl

theorem touch_lookup_none {g : DiGraph} {l l' : Label} (h : ∀ a, g.nodes.lookup l' ≠ some (some a)) : ∀ a, (g.touch l).nodes.lookup l' ≠ some (some a) := by
  intro a
  unfold DiGraph.touch
  split
  · exact h a
  · rename_i hl
    rw [DiGraph.hasNode_iff] at hl
    rw [DiGraph.lookup_append_new _ _ _ _ hl]
    split
    · simp
    · exact h a

theorem addEdgesFrom_lookup_none {es : List Edge} {l' : Label} : ∀ {g : DiGraph}, (∀ a, g.nodes.lookup l' ≠ some (some a)) →
    ∀ a, (g.addEdgesFrom es).nodes.lookup l' ≠ some (some a) := by
  induction es with
  | nil => exact fun h => h
  | cons e es ih =>
    intro g h
    refine ih (g := g.addEdge e) (fun a => ?_)
    rw [DiGraph.addEdge_nodes]
    exact touch_lookup_none (touch_lookup_none h) a

theorem addNodes_lookup_none {s : Structure} {l' : Label} (hl : l' ∉ s.labels) {g : DiGraph} (h : ∀ a, g.nodes.lookup l' ≠ some (some a)) :
    ∀ a, ((⟨s, g, none⟩ : NetworkGraph).addNodes s.labels).graph.nodes.lookup l' ≠ some (some a) := by
  have main : ∀ (rows : List ((Label × Nat × Nat) × Nat)) (g : DiGraph), (∀ t ∈ rows, t.1.1 ≠ l') → (∀ a, g.nodes.lookup l' ≠ some (some a)) →
      ∀ a, (rows.foldl (fun gr t => gr.setNode t.1.1 ⟨t.1.2.1, t.1.2.2, t.2⟩) g).nodes.lookup l' ≠ some (some a) := by
    intro rows
    induction rows with
    | nil => exact fun g _ h => h
    | cons t rows ih =>
      intro g h1 h2
      refine ih _ (fun t' ht' => h1 t' (by simp [ht'])) (fun a => ?_)
      rw [DiGraph.setNode_lookup, if_neg (Ne.symm (h1 t (by simp)))]
      exact h2 a
  refine main _ g ?_ h
  rintro ⟨⟨l, p⟩, k⟩ ht e
  have := (List.of_mem_zip (List.mem_of_getElem? (List.mem_zipIdx_iff_getElem?.1 ht))).1
  exact hl (e ▸ this)

/-- What every history leaves. -/
structure Inv (s : Structure) (ops : List GraphOp) (o : GraphMembers) : Prop where
  struct : o.struct = s
  nodup : o.graph.edges.Nodup
  edges : ∀ e, e ∈ o.graph.edges ↔ ops.foldl (absStep s) (fun _ => False) e
  bare : ∀ l, l ∉ s.labels → ∀ a, o.graph.nodes.lookup l ≠ some (some a)
  keys : ∀ l, l ∉ s.labels → (l ∈ o.graph.keys ↔ Mentioned s ops l)

theorem calls_inv {s : Structure} (hs : WFStructure s) (ops : List GraphOp) : Inv s ops ((new s).calls ops) := by
  induction ops using List.reverseRecOn with
  | nil =>
    refine ⟨rfl, List.nodup_nil, fun e => ?_, fun l _ a => by simp [calls, new, DiGraph.empty], fun l _ => ?_⟩
    · simp [calls, new, DiGraph.empty]
    · simp [calls, new, DiGraph.empty, DiGraph.keys, Mentioned]
  | append_singleton ops op ih =>
    have hc : (new s).calls (ops ++ [op]) = ((new s).calls ops).call op := by unfold calls; rw [List.foldl_append]; rfl
    rw [hc]
    set o := (new s).calls ops
    have hfold : ∀ e, (ops ++ [op]).foldl (absStep s) (fun _ => False) e = absStep s (fun e => e ∈ o.graph.edges) op e := by
      intro e
      rw [List.foldl_append]
      have : ops.foldl (absStep s) (fun _ => False) = fun e => e ∈ o.graph.edges := funext (fun e => propext (ih.edges e).symm)
      rw [this]; rfl
    cases op with
    | addEdges es =>
      refine ⟨ih.struct, DiGraph.addEdgesFrom_nodup ih.nodup, fun e => ?_, fun l hl => addEdgesFrom_lookup_none (ih.bare l hl), fun l hl => ?_⟩
      · rw [hfold]; exact DiGraph.mem_addEdgesFrom
      · refine DiGraph.mem_addEdgesFrom_keys.trans ?_
        refine (or_congr (ih.keys l hl) Iff.rfl).trans ?_
        unfold Mentioned
        simp only [List.mem_append, List.mem_singleton, GraphOp.addEdges.injEq, reduceCtorEq, or_false]
        constructor
        · rintro ((h | ⟨es', h1, h2⟩) | h)
          · exact .inl h
          · exact .inr ⟨es', .inl h1, h2⟩
          · exact .inr ⟨es, .inr rfl, h⟩
        · rintro (h | ⟨es', h1 | rfl, h2⟩)
          · exact .inl (.inl h)
          · exact .inl (.inr ⟨es', h1, h2⟩)
          · exact .inr h2
    | removeEdges es =>
      refine ⟨ih.struct, DiGraph.removeEdgesFrom_nodup ih.nodup, fun e => ?_, fun l hl => ih.bare l hl, fun l hl => ?_⟩
      · rw [hfold]; exact DiGraph.mem_removeEdgesFrom ih.nodup
      · refine (ih.keys l hl).trans ?_
        unfold Mentioned
        simp
    | fastInit n =>
      have hw : WFStructure o.base.struct := by show WFStructure o.struct; rw [ih.struct]; exact hs
      obtain ⟨h1, h2, h3, -, -⟩ := fastInit_head hw
      have hst : o.base.struct = s := ih.struct
      refine ⟨(fastInit_struct o n).trans ih.struct, ?_, fun e => ?_, fun l hl => ?_, fun l hl => ?_⟩
      · show (o.fastInit n).1.graph.edges.Nodup
        rw [fastInit_graph]; exact h2 ih.nodup
      · show e ∈ (o.fastInit n).1.graph.edges ↔ _
        rw [hfold, fastInit_graph, ← ih.struct]; exact h3 e
      · show ∀ a, (o.fastInit n).1.graph.nodes.lookup l ≠ some (some a)
        rw [fastInit_graph]
        refine addEdgesFrom_lookup_none (addNodes_lookup_none (s := o.struct) ?_ (ih.bare l hl))
        rw [ih.struct]; exact hl
      · show l ∈ (o.fastInit n).1.graph.keys ↔ _
        rw [fastInit_graph]
        refine DiGraph.mem_addEdgesFrom_keys.trans ?_
        have hrows := map_fst_rows hw.idxLen hw.valLen
        have hnd : (((o.base.struct.labels.zip (o.base.struct.indexes.zip o.base.struct.vals)).zipIdx).map (fun t => t.1.1)).Nodup := by
          rw [hrows]; exact hw.nodup
        obtain ⟨f1, f2, f3, f4, f5⟩ := foldl_setNode _ o.base.graph hnd
        rw [hrows] at f3
        have hk : l ∈ (o.base.addNodes o.struct.labels).graph.keys ↔ l ∈ o.graph.keys := by
          refine (f3 l).trans ⟨?_, .inl⟩
          rintro (h | h)
          · exact h
          · rw [hst] at h; exact absurd h hl
        rw [hk, ih.keys l hl, ih.struct]
        unfold Mentioned
        simp only [List.mem_append, List.mem_singleton, reduceCtorEq, or_false, GraphOp.fastInit.injEq]
        constructor
        · rintro ((⟨h1, m, h2⟩ | h) | h)
          · exact .inl ⟨h1, m, .inl h2⟩
          · exact .inr h
          · exact .inl ⟨h, n, .inr rfl⟩
        · rintro (⟨h1, -⟩ | h)
          · exact .inr h1
          · exact .inl (.inr h)

end GraphMembers

open GraphMembers

/-- **C228** (known label).  After any calls of `add_edges`, `remove_edges` and `fast_init` with whatever edges and labels, exceptions caught: for a label `n` of the structure
`fast_init(n)` succeeds if all parents of `n` are labels of the structure, and then all members are those the present edges and the structure determine; otherwise it
raises `KeyError` and leaves the six derived members as they were. -/
theorem fast_init_after_failures (s : Structure) (hs : WFStructure s) (ops : List GraphOp) (n : Label) (hn : n ∈ s.labels) :
    let o := (GraphMembers.new s).calls ops
    let present : Edge → Prop := fun e => ops.foldl (absStep s) (fun _ => False) e ∨ e ∈ s.edges
    ((∀ l, present (l, n) → l ∈ s.labels) → (o.fastInit n).2 = none ∧ ∃ d, (o.fastInit n).1.Shows d ∧ DerivedFor s present n d) ∧
    ((∃ l, present (l, n) ∧ l ∉ s.labels) → (o.fastInit n).2 = some .keyError ∧ (o.fastInit n).1.info = o.info ∧ (o.fastInit n).1.tables = o.tables) := by
  intro o present
  have hi := calls_inv hs ops
  have hst : o.base.struct = s := hi.struct
  have hw : WFStructure o.base.struct := by rw [hst]; exact hs
  obtain ⟨b1, b2⟩ := fast_init_boundary o.base n hw hi.nodup (by rw [hst]; exact hn)
  have hpres : (fun e => e ∈ o.base.graph.edges ∨ e ∈ o.base.struct.edges) = present := by
    funext e
    rw [hst]
    exact propext (or_congr (hi.edges e) Iff.rfl)
  have hpe : ∀ e, (e ∈ o.base.graph.edges ∨ e ∈ o.base.struct.edges) ↔ present e := fun e => by rw [← hpres]
  refine ⟨fun h => ?_, fun ⟨l, h1, h2⟩ => ?_⟩
  · obtain ⟨g', d, h1, h2, h3⟩ := b1 (fun l hl => by rw [hst]; exact h l ((hpe _).1 hl))
    obtain ⟨d', e1, e2, e3, -⟩ := (fastInit_refines o n).1 g' h1
    rw [h2] at e1
    cases e1
    refine ⟨e2, d, e3, ?_⟩
    rwa [hpres, hst] at h3
  · obtain ⟨e1, e2⟩ := (fastInit_refines o n).2 _ (b2 ⟨l, (hpe _).2 h1, by rw [hst]; exact h2⟩)
    refine ⟨e1, ?_, e2⟩
    -- the parents were not found
    obtain ⟨c1, c2, c3, c4, -⟩ := fastInit_head hw
    set g2 := (o.base.addNodes o.struct.labels).addEdges o.struct.edges with hg2
    have hnode : g2.graph.hasNode n = true := DiGraph.hasNode_iff.2 (c4 n (by rw [hst]; exact hn))
    have : g2.getOrderedParents n = .error .keyError := by
      have hpred : g2.getParentsById n = .ok ((g2.graph.edges.filter (fun e => e.2 == n)).map Prod.fst) := by
        simp [NetworkGraph.getParentsById, DiGraph.predecessors, hnode]
      have hall : ((g2.graph.edges.filter (fun e => e.2 == n)).map Prod.fst).all (fun p => decide (p ∈ g2.struct.labels)) = false := by
        rw [List.all_eq_false]
        refine ⟨l, List.mem_map.2 ⟨(l, n), List.mem_filter.2 ⟨(c3 (l, n)).2 ((hpe _).2 h1), by simp⟩, rfl⟩, ?_⟩
        have : g2.struct = s := c1.trans hst
        rw [this]; simpa using h2
      simp only [NetworkGraph.getOrderedParents, hpred, Except.bind_ok', hall]
      rfl
    unfold GraphMembers.fastInit
    rw [← hg2]
    simp only [this]

/-- **C228** (unknown label).  After such calls `fast_init(n)` for a label unknown to the structure raises: `NetworkXError` if `n` never was an end of an edge, otherwise
`KeyError`.  It nevertheless installs the edges of the structure; the tables stay those of the node initialised before, but if `n` is in the graph and all its parents are
labels, the parent information becomes that of `n`, so that it no longer belongs to the tables. -/
theorem fast_init_unknown_label (s : Structure) (hs : WFStructure s) (ops : List GraphOp) (n : Label) (hn : n ∉ s.labels) :
    let o := (GraphMembers.new s).calls ops
    let present : Edge → Prop := fun e => ops.foldl (absStep s) (fun _ => False) e ∨ e ∈ s.edges
    let there := Mentioned s (ops ++ [.fastInit n]) n
    (there → (o.fastInit n).2 = some .keyError) ∧ (¬ there → (o.fastInit n).2 = some .networkXError) ∧
    (o.fastInit n).1.struct = s ∧ (∀ e, e ∈ (o.fastInit n).1.graph.edges ↔ present e) ∧ (o.fastInit n).1.tables = o.tables ∧
    (there → (∀ l, present (l, n) → l ∈ s.labels) → ∃ info, (o.fastInit n).1.info = some info ∧ info.parents.Sublist s.labels ∧ ∀ l, l ∈ info.parents ↔ present (l, n)) ∧
    ((¬ there ∨ ∃ l, present (l, n) ∧ l ∉ s.labels) → (o.fastInit n).1.info = o.info) := by
  intro o present there
  have hi := calls_inv hs ops
  have hi' := calls_inv hs (ops ++ [.fastInit n])
  have hst : o.base.struct = s := hi.struct
  have hst' : o.struct = s := hi.struct
  have hw : WFStructure o.base.struct := by rw [hst]; exact hs
  have hnext : (GraphMembers.new s).calls (ops ++ [.fastInit n]) = (o.fastInit n).1 := by unfold calls; rw [List.foldl_append]; rfl
  rw [hnext] at hi'
  obtain ⟨c1, c2, c3, c4, c5⟩ := fastInit_head hw
  have hgr := fastInit_graph o n
  set g2 := (o.base.addNodes o.struct.labels).addEdges o.struct.edges with hg2
  have hg2s : g2.struct = s := c1.trans hst
  have hed : ∀ e, e ∈ g2.graph.edges ↔ present e := fun e => by
    refine (c3 e).trans ?_
    rw [hst]
    exact or_congr (hi.edges e) Iff.rfl
  have hkey : g2.graph.hasNode n = true ↔ there := by
    rw [DiGraph.hasNode_iff, ← hgr]; exact hi'.keys n hn
  have hattr : g2.getStatesNumber n = .error .keyError := by
    have := hi'.bare n hn
    rw [hgr] at this
    unfold NetworkGraph.getStatesNumber DiGraph.attr
    split
    · rename_i a h; exact absurd h (this a)
    · rfl
  have hno : ¬ there → g2.getOrderedParents n = .error .networkXError := by
    intro h
    have hf : g2.graph.hasNode n = false := by rw [Bool.eq_false_iff]; exact fun hh => h (hkey.1 hh)
    simp [NetworkGraph.getOrderedParents, NetworkGraph.getParentsById, DiGraph.predecessors, hf]
  have hpred : there → g2.getParentsById n = .ok ((g2.graph.edges.filter (fun e => e.2 == n)).map Prod.fst) := fun h => by
    simp [NetworkGraph.getParentsById, DiGraph.predecessors, hkey.2 h]
  have hpm : ∀ l, l ∈ ((g2.graph.edges.filter (fun e => e.2 == n)).map Prod.fst) ↔ present (l, n) := by
    intro l; rw [← hed]; simp
  have hbadp : there → (∃ l, present (l, n) ∧ l ∉ s.labels) → g2.getOrderedParents n = .error .keyError := by
    rintro h ⟨l, h1, h2⟩
    have hall : ((g2.graph.edges.filter (fun e => e.2 == n)).map Prod.fst).all (fun p => decide (p ∈ g2.struct.labels)) = false := by
      rw [List.all_eq_false]
      exact ⟨l, (hpm l).2 h1, by rw [hg2s]; simpa using h2⟩
    simp only [NetworkGraph.getOrderedParents, hpred h, Except.bind_ok', hall]
    rfl
  have hgood : there → (∀ l, present (l, n) → l ∈ s.labels) → ∃ info, g2.getOrderedParents n = .ok info ∧ info.parents.Sublist s.labels ∧
      ∀ l, l ∈ info.parents ↔ present (l, n) := by
    intro h hcl
    have hclosed : ∀ p ∈ ((g2.graph.edges.filter (fun e => e.2 == n)).map Prod.fst), p ∈ g2.struct.labels := by
      intro p hp
      rw [hg2s]; exact hcl p ((hpm p).1 hp)
    have hall : ((g2.graph.edges.filter (fun e => e.2 == n)).map Prod.fst).all (fun p => decide (p ∈ g2.struct.labels)) = true := by
      rw [List.all_eq_true]; intro p hp
      simpa using hclosed p hp
    have hsort := sort_parents_eq_filter (labels := g2.struct.labels) (parents := (g2.graph.edges.filter (fun e => e.2 == n)).map Prod.fst) (by rw [hg2s]; exact hs.nodup) (nodup_predecessors (c2 hi.nodup) n) hclosed
    set Q := g2.struct.labels.filter (fun l => decide (l ∈ ((g2.graph.edges.filter (fun e => e.2 == n)).map Prod.fst))) with hQ
    have hQsub : ∀ p ∈ Q, p ∈ s.labels := fun p hp => by rw [← hg2s]; exact (List.mem_filter.1 hp).1
    have hQo : ∀ p ∈ Q, p ∈ o.base.struct.labels := fun p hp => by rw [hst]; exact hQsub p hp
    obtain ⟨is, hi1, -⟩ := mapM_ok_of_forall g2.getNodeIndx Q (fun p hp => by
      obtain ⟨v, _, hv⟩ := lookupPos_mem (vals := o.base.struct.indexes) (hQo p hp) hw.idxLen
      exact ⟨v, (c5 p (hQo p hp)).1.trans hv⟩)
    obtain ⟨vs, hv1, -⟩ := mapM_ok_of_forall g2.getStatesNumber Q (fun p hp => by
      obtain ⟨v, _, hv⟩ := lookupPos_mem (vals := o.base.struct.vals) (hQo p hp) hw.valLen
      exact ⟨v, (c5 p (hQo p hp)).2.trans hv⟩)
    refine ⟨⟨Q, is, vs⟩, ?_, ?_, fun l => ?_⟩
    · simp only [NetworkGraph.getOrderedParents, hpred h, Except.bind_ok', hall, if_true]
      rw [hsort, hi1, hv1]
      rfl
    · rw [← hg2s]; exact List.filter_sublist
    · show l ∈ Q ↔ _
      rw [hQ, List.mem_filter, decide_eq_true_eq, hpm]
      exact ⟨fun h => h.2, fun hl => ⟨by rw [hg2s]; exact hcl l hl, hl⟩⟩
  have hun : ∀ {e}, g2.getOrderedParents n = .error e → (o.fastInit n) = ({ o with graph := g2.graph }, some e) := by
    intro e h
    unfold GraphMembers.fastInit
    rw [← hg2]
    simp only [h]
  have hun' : ∀ {info}, g2.getOrderedParents n = .ok info → (o.fastInit n) = ({ o with graph := g2.graph, info := some info }, some .keyError) := by
    intro info h
    unfold GraphMembers.fastInit
    rw [← hg2]
    simp only [h, hattr]
  have hcases : (¬ there) ∨ (there ∧ ∃ l, present (l, n) ∧ l ∉ s.labels) ∨ (there ∧ ∀ l, present (l, n) → l ∈ s.labels) := by
    by_cases h : there
    · by_cases h2 : ∃ l, present (l, n) ∧ l ∉ s.labels
      · exact .inr (.inl ⟨h, h2⟩)
      · push Not at h2; exact .inr (.inr ⟨h, h2⟩)
    · exact .inl h
  rcases hcases with h | ⟨h, hb⟩ | ⟨h, hg⟩
  · rw [hun (hno h)]
    exact ⟨fun hh => absurd hh h, fun _ => rfl, hst', hed, rfl, fun hh => absurd hh h, fun _ => rfl⟩
  · rw [hun (hbadp h hb)]
    obtain ⟨l, l1, l2⟩ := hb
    exact ⟨fun _ => rfl, fun hh => absurd h hh, hst', hed, rfl, fun _ hh => absurd (hh l l1) l2, fun _ => rfl⟩
  · obtain ⟨info, i1, i2, i3⟩ := hgood h hg
    rw [hun' i1]
    refine ⟨fun _ => rfl, fun hh => absurd h hh, hst', hed, rfl, fun _ _ => ⟨info, rfl, i2, i3⟩, ?_⟩
    rintro (hh | ⟨l, l1, l2⟩)
    · exact absurd h hh
    · exact absurd (hg l l1) l2

/-- **C228** (recovery).  So a raising `fast_init` does no lasting harm: whatever calls were made before, two objects with the same structure and the same present edges show the
same after a successful `fast_init(n)`. -/
theorem fast_init_forgets_failures (s : Structure) (hs : WFStructure s) (ops₁ ops₂ : List GraphOp) (n : Label) (hn : n ∈ s.labels)
    (same : ∀ e, (ops₁.foldl (absStep s) (fun _ => False) e ∨ e ∈ s.edges) ↔ (ops₂.foldl (absStep s) (fun _ => False) e ∨ e ∈ s.edges))
    (hok : (((GraphMembers.new s).calls ops₁).fastInit n).2 = none) :
    (((GraphMembers.new s).calls ops₂).fastInit n).2 = none ∧ (((GraphMembers.new s).calls ops₁).fastInit n).1.info = (((GraphMembers.new s).calls ops₂).fastInit n).1.info ∧
    (((GraphMembers.new s).calls ops₁).fastInit n).1.tables = (((GraphMembers.new s).calls ops₂).fastInit n).1.tables := by
  obtain ⟨a1, a2⟩ := fast_init_after_failures s hs ops₁ n hn
  obtain ⟨b1, -⟩ := fast_init_after_failures s hs ops₂ n hn
  have hcl : ∀ l, (ops₁.foldl (absStep s) (fun _ => False) (l, n) ∨ (l, n) ∈ s.edges) → l ∈ s.labels := by
    intro l hl
    by_contra hnl
    have := (a2 ⟨l, hl, hnl⟩).1
    rw [hok] at this
    cases this
  obtain ⟨-, d, d1, d2⟩ := a1 hcl
  obtain ⟨e0, d', e1, e2⟩ := b1 (fun l hl => hcl l ((same _).2 hl))
  have hpar : d.info.parents = d'.info.parents := by
    have hf : ∀ (d : Derived) (present : Edge → Prop) [DecidablePred present], DerivedFor s present n d → d.info.parents = s.labels.filter (fun l => decide (present (l, n))) := by
      intro d present _ h
      refine List.Sublist.eq_of_length_le ?_ ?_ |>.trans rfl
      · have := h.parents_sub.filter (fun l => decide (present (l, n)))
        rwa [List.filter_eq_self.2 (fun l hl => by simpa using (h.parents_mem l).1 hl)] at this
      · refine List.Subperm.length_le (List.subperm_of_subset (hs.nodup.filter _) (fun l hl => ?_))
        rw [List.mem_filter, decide_eq_true_eq] at hl
        exact (h.parents_mem l).2 hl.2
    classical
    rw [hf d _ d2, hf d' _ e2]
    apply List.filter_congr
    intro l _
    rw [decide_eq_decide]
    exact same (l, n)
  have okinj : ∀ xs ys : List Nat, xs.map (Except.ok (ε := PyErr)) = ys.map Except.ok → xs = ys := fun xs ys h =>
    (List.map_injective_iff.2 (fun _ _ h => Except.ok.inj h)) h
  have hidx : d.info.indxs = d'.info.indxs := okinj _ _ (by rw [d2.indxs, e2.indxs, hpar])
  have hval : d.info.vals = d'.info.vals := okinj _ _ (by rw [d2.vals, e2.vals, hpar])
  have hinfo : d.info = d'.info := by
    obtain ⟨⟨p1, p2, p3⟩, q2, q3, q4, q5, q6⟩ := d
    obtain ⟨⟨r1, r2, r3⟩, t2, t3, t4, t5, t6⟩ := d'
    simp only at hpar hidx hval
    simp [hpar, hidx, hval]
  obtain ⟨c, i, f1, f2, f3, f4, f5, f6, f7⟩ := d2.nodeData
  obtain ⟨c', i', g1, g2, g3, g4, g5, g6, g7⟩ := e2.nodeData
  have hc : c = c' := Except.ok.inj (f1.symm.trans g1)
  have hii : i = i' := Except.ok.inj (f2.symm.trans g2)
  subst hc hii
  obtain ⟨x1, x2, x3, x4, x5, x6⟩ := d1
  obtain ⟨y1, y2, y3, y4, y5, y6⟩ := e1
  refine ⟨e0, by rw [x1, y1, hinfo], ?_⟩
  unfold tables
  rw [x2, x3, x4, x5, x6, y2, y3, y4, y5, y6, f3, f4, f5, f6, f7, g3, g4, g5, g6, g7, hinfo]

/-! ## Non-vacuity -/

namespace Demo

/-- A structure `X → Y` with 2 and 3 states. -/
def halfStruct : Structure := ⟨["X", "Y"], [0, 1], [2, 3], [("X", "Y")], 2⟩

/-- After `fast_init("Y")`, an edge from `X` to an unknown `G` and a caught `fast_init("G")` the parent information is of `G`, the tables are of `Y`. -/
example : (((GraphMembers.new halfStruct).calls [.addEdges [("Y", "X")], .fastInit "X", .addEdges [("X", "G")]]).fastInit "G")
    = (⟨halfStruct, ⟨[("Y", some ⟨1, 3, 1⟩), ("X", some ⟨0, 2, 0⟩), ("G", none)], [("Y", "X"), ("X", "Y"), ("X", "G")]⟩, some ⟨["X"], [0], [2]⟩,
        some [2, 6], some [2, 4, 12], some [0, 1], some [2, 0, 1], some [[0], [1], [2]]⟩, some .keyError) := by decide +kernel

end Demo

end PyCTBN
