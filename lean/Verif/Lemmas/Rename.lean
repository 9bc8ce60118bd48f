import Verif.Spec.Rename
import Verif.Lemmas.Py
import Mathlib.Data.List.Sort

/-!
# The model commutes with renaming variables
-/

namespace PyCTBN
open Spec

theorem Py.map_ok {α β : Type} (f : α → β) (a : α) : f <$> (Except.ok a : Py α) = .ok (f a) := rfl
theorem Py.map_error {α β : Type} (f : α → β) (e : PyErr) : f <$> (Except.error e : Py α) = .error e := rfl

/-- Two computations that do the same on related values. -/
theorem Py.bind_map {α α' β β' : Type} {f : α → α'} {h : β → β'} {x : Py α} {k : α → Py β} {k' : α' → Py β'}
    (hk : ∀ a, k' (f a) = h <$> k a) : (f <$> x >>= k') = h <$> (x >>= k) := by
  cases x with
  | error e => rfl
  | ok a => exact hk a

theorem Py.bind_map' {α β β' : Type} {h : β → β'} {x : Py α} {k : α → Py β} {k' : α → Py β'}
    (hk : ∀ a, k' a = h <$> k a) : (x >>= k') = h <$> (x >>= k) := by
  cases x with
  | error e => rfl
  | ok a => exact hk a

theorem mapM_map_py {α α' β β' : Type} {f : α → α'} {h : β → β'} {g : α → Py β} {g' : α' → Py β'} (hg : ∀ a, g' (f a) = h <$> g a) (l : List α) :
    (l.map f).mapM g' = (List.map h) <$> l.mapM g := by
  induction l with
  | nil => rfl
  | cons a l ih =>
    rw [List.map_cons, List.mapM_cons, List.mapM_cons, hg, ih]
    cases g a with
    | error e => rfl
    | ok b => cases l.mapM g <;> rfl

theorem mapM_map_id {α α' β : Type} {f : α → α'} {g : α → Py β} {g' : α' → Py β} (hg : ∀ a, g' (f a) = g a) (l : List α) :
    (l.map f).mapM g' = l.mapM g := by
  induction l with
  | nil => rfl
  | cons a l ih => rw [List.map_cons, List.mapM_cons, List.mapM_cons, hg, ih]

section
variable {ρ : Label → Label} (hρ : Function.Injective ρ)
include hρ

theorem renameEdge_inj : Function.Injective (renameEdge ρ) := by
  rintro ⟨a, b⟩ ⟨c, d⟩ h
  simp only [renameEdge, Prod.mk.injEq] at h
  rw [hρ h.1, hρ h.2]

theorem mem_ren {l : List Label} {x : Label} : ρ x ∈ l.map ρ ↔ x ∈ l := List.mem_map_of_injective hρ

theorem mem_renE {l : List Edge} {x : Edge} : renameEdge ρ x ∈ l.map (renameEdge ρ) ↔ x ∈ l := List.mem_map_of_injective (renameEdge_inj hρ)

omit hρ in
theorem idxOf_ren {α β : Type} [DecidableEq α] [DecidableEq β] {f : α → β} (hf : Function.Injective f) (l : List α) (x : α) :
    (l.map f).idxOf? (f x) = l.idxOf? x := by
  induction l with
  | nil => rfl
  | cons a l ih =>
    rw [List.map_cons, List.idxOf?_cons, List.idxOf?_cons, ih]
    by_cases h : a = x
    · subst h; simp
    · have : f a ≠ f x := fun hh => h (hf hh)
      simp [h, this]

omit hρ in
theorem idxOf_ren' {α β : Type} [DecidableEq α] [DecidableEq β] {f : α → β} (hf : Function.Injective f) (l : List α) (x : α) :
    (l.map f).idxOf (f x) = l.idxOf x := by
  induction l with
  | nil => rfl
  | cons a l ih =>
    rw [List.map_cons, List.idxOf_cons, List.idxOf_cons, ih]
    by_cases h : a = x
    · subst h; simp
    · have : f a ≠ f x := fun hh => h (hf hh)
      simp only [beq_eq_false_iff_ne.2 h, beq_eq_false_iff_ne.2 this]

theorem pyIndex_ren (l : List Label) (x : Label) : pyIndex (l.map ρ) (ρ x) = pyIndex l x := by
  unfold pyIndex; rw [idxOf_ren hρ]

omit hρ in
theorem pyGet_ren {α β : Type} (f : α → β) (l : List α) (i : Nat) : pyGet (l.map f) i = f <$> pyGet l i := by
  unfold pyGet
  rw [List.getElem?_map]
  cases l[i]? <;> rfl

theorem pyRemove_ren (l : List Label) (x : Label) : pyRemove (l.map ρ) (ρ x) = List.map ρ <$> pyRemove l x := by
  unfold pyRemove
  by_cases h : x ∈ l
  · rw [if_pos ((mem_ren hρ).2 h), if_pos h, ← List.map_erase hρ]; rfl
  · rw [if_neg (fun hh => h ((mem_ren hρ).1 hh)), if_neg h]; rfl

/-! ## Structures -/

theorem ren_getNodeIndx (s : Structure) (l : Label) : (renameStruct ρ s).getNodeIndx (ρ l) = s.getNodeIndx l := by
  unfold Structure.getNodeIndx renameStruct
  simp only [pyIndex_ren hρ]

theorem ren_getStatesNumber (s : Structure) (l : Label) : (renameStruct ρ s).getStatesNumber (ρ l) = s.getStatesNumber l := by
  unfold Structure.getStatesNumber renameStruct
  simp only [pyIndex_ren hρ]

omit hρ in
theorem ren_getNodeId (s : Structure) (i : Nat) : (renameStruct ρ s).getNodeId i = ρ <$> s.getNodeId i := pyGet_ren ρ _ _

theorem filter_edges_ren (x : Label) (es : List Edge) :
    (es.map (renameEdge ρ)).filter (fun e => e.1 != ρ x && e.2 != ρ x) = (es.filter (fun e => e.1 != x && e.2 != x)).map (renameEdge ρ) := by
  rw [List.filter_map]
  congr 1
  refine List.filter_congr (fun e _ => ?_)
  simp [renameEdge, bne, hρ.eq_iff, Bool.beq_eq_decide_eq]

theorem ren_removeNode (s : Structure) (x : Label) : (renameStruct ρ s).removeNode (ρ x) = renameStruct ρ <$> s.removeNode x := by
  unfold Structure.removeNode
  have h : pyIndex (renameStruct ρ s).labels (ρ x) = pyIndex s.labels x := pyIndex_ren hρ _ _
  rw [h]
  refine Py.bind_map' (fun pos => ?_)
  refine Py.bind_map' (fun idx => ?_)
  refine Py.bind_map' (fun vals => ?_)
  simp only [renameStruct, filter_edges_ren hρ, List.eraseIdx_map]
  rfl

/-! ## Graphs -/

theorem ren_hasNode (g : DiGraph) (l : Label) : (renameDi ρ g).hasNode (ρ l) = g.hasNode l := by
  unfold DiGraph.hasNode renameDi
  rw [List.map_map]
  refine decide_eq_decide.2 ?_
  have : (Prod.fst ∘ fun p : Label × Option NodeAttr => (ρ p.1, p.2)) = ρ ∘ Prod.fst := rfl
  rw [this, ← List.map_map]
  exact mem_ren hρ

theorem ren_touch (g : DiGraph) (l : Label) : (renameDi ρ g).touch (ρ l) = renameDi ρ (g.touch l) := by
  unfold DiGraph.touch
  rw [ren_hasNode hρ]
  split_ifs
  · rfl
  · simp [renameDi]

theorem ren_setNode (g : DiGraph) (l : Label) (a : NodeAttr) : (renameDi ρ g).setNode (ρ l) a = renameDi ρ (g.setNode l a) := by
  unfold DiGraph.setNode
  rw [ren_hasNode hρ]
  split_ifs
  · simp only [renameDi, List.map_map]
    congr 1
    refine List.map_congr_left (fun p _ => ?_)
    simp only [Function.comp, hρ.eq_iff]
    split_ifs <;> rfl
  · simp [renameDi]

theorem ren_addEdge (g : DiGraph) (e : Edge) : (renameDi ρ g).addEdge (renameEdge ρ e) = renameDi ρ (g.addEdge e) := by
  unfold DiGraph.addEdge
  simp only [renameEdge, ren_touch hρ]
  have h : (ρ e.1, ρ e.2) ∈ (renameDi ρ ((g.touch e.1).touch e.2)).edges ↔ e ∈ ((g.touch e.1).touch e.2).edges := mem_renE hρ
  by_cases h' : e ∈ ((g.touch e.1).touch e.2).edges
  · rw [if_pos (h.2 h'), if_pos h']
  · rw [if_neg (fun hh => h' (h.1 hh)), if_neg h']
    simp [renameDi, renameEdge]

theorem ren_addEdgesFrom (es : List Edge) : ∀ g : DiGraph, (renameDi ρ g).addEdgesFrom (es.map (renameEdge ρ)) = renameDi ρ (g.addEdgesFrom es) := by
  induction es with
  | nil => intro g; rfl
  | cons e es ih =>
    intro g
    unfold DiGraph.addEdgesFrom at ih ⊢
    rw [List.map_cons, List.foldl_cons, List.foldl_cons, ren_addEdge hρ, ih]

theorem ren_removeEdgesFrom (g : DiGraph) (es : List Edge) : (renameDi ρ g).removeEdgesFrom (es.map (renameEdge ρ)) = renameDi ρ (g.removeEdgesFrom es) := by
  unfold DiGraph.removeEdgesFrom
  have : ∀ (es l : List Edge), (es.map (renameEdge ρ)).foldl (fun l e => l.erase e) (l.map (renameEdge ρ))
      = (es.foldl (fun l e => l.erase e) l).map (renameEdge ρ) := by
    intro es
    induction es with
    | nil => intro l; rfl
    | cons e es ih =>
      intro l
      rw [List.map_cons, List.foldl_cons, List.foldl_cons, ← List.map_erase (renameEdge_inj hρ), ih]
  simp only [renameDi, this]

theorem ren_diRemoveNode (g : DiGraph) (x : Label) : (renameDi ρ g).removeNode (ρ x) = renameDi ρ <$> g.removeNode x := by
  unfold DiGraph.removeNode
  rw [ren_hasNode hρ]
  split_ifs
  · simp only [renameDi, filter_edges_ren hρ, Py.map_ok, Except.ok.injEq, DiGraph.mk.injEq, and_true]
    rw [List.filter_map]
    congr 1
    refine List.filter_congr (fun p _ => ?_)
    simp [bne, hρ.eq_iff, Bool.beq_eq_decide_eq]
  · rfl

theorem ren_diHasEdge (g : DiGraph) (e : Edge) : (renameDi ρ g).hasEdge (renameEdge ρ e) = g.hasEdge e :=
  decide_eq_decide.2 (mem_renE hρ)

theorem ren_predecessors (g : DiGraph) (n : Label) : (renameDi ρ g).predecessors (ρ n) = List.map ρ <$> g.predecessors n := by
  unfold DiGraph.predecessors
  rw [ren_hasNode hρ]
  split_ifs
  · simp only [renameDi, Py.map_ok, List.filter_map, List.map_map]
    congr 1
    have : (List.filter ((fun e : Edge => e.2 == ρ n) ∘ renameEdge ρ) g.edges) = g.edges.filter (fun e => e.2 == n) := by
      refine List.filter_congr (fun e _ => ?_)
      simp [renameEdge, hρ.eq_iff, Bool.beq_eq_decide_eq]
    rw [this]
    rfl
  · rfl

theorem ren_edgesView (g : DiGraph) : (renameDi ρ g).edgesView = g.edgesView.map (renameEdge ρ) := by
  unfold DiGraph.edgesView
  simp only [renameDi, List.flatMap_map, List.map_flatMap]
  refine List.flatMap_congr (fun p _ => ?_)
  rw [List.filter_map]
  congr 1
  refine List.filter_congr (fun e _ => ?_)
  simp [renameEdge, hρ.eq_iff, Bool.beq_eq_decide_eq]

theorem ren_attr (g : DiGraph) (n : Label) : (renameDi ρ g).attr (ρ n) = g.attr n := by
  unfold DiGraph.attr
  have : (renameDi ρ g).nodes.lookup (ρ n) = g.nodes.lookup n := by
    simp only [renameDi]
    induction g.nodes with
    | nil => rfl
    | cons p l ih =>
      rw [List.map_cons, List.lookup_cons, List.lookup_cons, ih]
      by_cases h : n = p.1
      · subst h; simp
      · have : ρ n ≠ ρ p.1 := fun hh => h (hρ hh)
        simp only [beq_eq_false_iff_ne.2 h, beq_eq_false_iff_ne.2 this]
  rw [this]

/-! ## Graph objects -/

omit hρ in
theorem ren_new (s : Structure) : NetworkGraph.new (renameStruct ρ s) = renameGraph ρ (NetworkGraph.new s) := rfl

theorem ren_addNodes (g : NetworkGraph) (nodes : List Label) : (renameGraph ρ g).addNodes (nodes.map ρ) = renameGraph ρ (g.addNodes nodes) := by
  unfold NetworkGraph.addNodes
  simp only [renameGraph]
  congr 1
  rw [List.zip_map_left, List.zipIdx_map, List.foldl_map]
  have : ∀ (l : List ((Label × Nat × Nat) × Nat)) (gr : DiGraph),
      l.foldl (fun gr t => gr.setNode (ρ t.1.1) ⟨t.1.2.1, t.1.2.2, t.2⟩) (renameDi ρ gr)
        = renameDi ρ (l.foldl (fun gr t => gr.setNode t.1.1 ⟨t.1.2.1, t.1.2.2, t.2⟩) gr) := by
    intro l
    induction l with
    | nil => intro gr; rfl
    | cons t l ih => intro gr; rw [List.foldl_cons, List.foldl_cons, ren_setNode hρ, ih]
  exact this _ _

theorem ren_hasEdge (g : NetworkGraph) (a b : Label) : (renameGraph ρ g).hasEdge (ρ a, ρ b) = g.hasEdge (a, b) := ren_diHasEdge hρ g.graph (a, b)

theorem ren_addEdges (g : NetworkGraph) (es : List Edge) : (renameGraph ρ g).addEdges (es.map (renameEdge ρ)) = renameGraph ρ (g.addEdges es) := by
  unfold NetworkGraph.addEdges renameGraph
  simp only [ren_addEdgesFrom hρ]

theorem ren_addEdge1 (g : NetworkGraph) (a b : Label) : (renameGraph ρ g).addEdges [(ρ a, ρ b)] = renameGraph ρ (g.addEdges [(a, b)]) := ren_addEdges hρ g [(a, b)]

theorem ren_removeEdges (g : NetworkGraph) (es : List Edge) : (renameGraph ρ g).removeEdges (es.map (renameEdge ρ)) = renameGraph ρ (g.removeEdges es) := by
  unfold NetworkGraph.removeEdges renameGraph
  simp only [ren_removeEdgesFrom hρ]

theorem ren_removeEdge1 (g : NetworkGraph) (a b : Label) : (renameGraph ρ g).removeEdges [(ρ a, ρ b)] = renameGraph ρ (g.removeEdges [(a, b)]) :=
  ren_removeEdges hρ g [(a, b)]

theorem ren_graphRemoveNode (g : NetworkGraph) (x : Label) : (renameGraph ρ g).removeNode (ρ x) = renameGraph ρ <$> g.removeNode x := by
  unfold NetworkGraph.removeNode
  have h1 : (renameGraph ρ g).graph.removeNode (ρ x) = renameDi ρ <$> g.graph.removeNode x := ren_diRemoveNode hρ _ _
  have h2 : (renameGraph ρ g).struct.removeNode (ρ x) = renameStruct ρ <$> g.struct.removeNode x := ren_removeNode hρ _ _
  rw [h1, h2]
  refine Py.bind_map (fun gr => ?_)
  refine Py.bind_map (fun s => ?_)
  rfl

theorem ren_getParentsById (g : NetworkGraph) (n : Label) : (renameGraph ρ g).getParentsById (ρ n) = List.map ρ <$> g.getParentsById n := ren_predecessors hρ _ _

theorem ren_gStates (g : NetworkGraph) (n : Label) : (renameGraph ρ g).getStatesNumber (ρ n) = g.getStatesNumber n := by
  unfold NetworkGraph.getStatesNumber
  have : (renameGraph ρ g).graph.attr (ρ n) = g.graph.attr n := ren_attr hρ _ _
  rw [this]

theorem ren_gIndx (g : NetworkGraph) (n : Label) : (renameGraph ρ g).getNodeIndx (ρ n) = g.getNodeIndx n := by
  unfold NetworkGraph.getNodeIndx
  have : (renameGraph ρ g).graph.attr (ρ n) = g.graph.attr n := ren_attr hρ _ _
  rw [this]

theorem ren_edges (g : NetworkGraph) : (renameGraph ρ g).edges = g.edges.map (renameEdge ρ) := ren_edgesView hρ _

theorem ren_orderedParents (g : NetworkGraph) (n : Label) : (renameGraph ρ g).getOrderedParents (ρ n) = renameInfo ρ <$> g.getOrderedParents n := by
  unfold NetworkGraph.getOrderedParents
  rw [ren_getParentsById hρ]
  refine Py.bind_map (fun ps => ?_)
  have hall : (ps.map ρ).all (fun p => decide (p ∈ (renameGraph ρ g).struct.labels)) = ps.all (fun p => decide (p ∈ g.struct.labels)) := by
    rw [List.all_map]
    congr 1
    funext p
    exact decide_eq_decide.2 (mem_ren hρ)
  simp only [hall]
  split_ifs
  · have hsort : (ps.map ρ).insertionSort (fun a b => (renameGraph ρ g).struct.labels.idxOf a ≤ (renameGraph ρ g).struct.labels.idxOf b)
        = (ps.insertionSort (fun a b => g.struct.labels.idxOf a ≤ g.struct.labels.idxOf b)).map ρ := by
      refine (List.map_insertionSort _ _ _ _ (fun a _ b _ => ?_)).symm
      show _ ↔ (g.struct.labels.map ρ).idxOf (ρ a) ≤ (g.struct.labels.map ρ).idxOf (ρ b)
      rw [idxOf_ren' hρ, idxOf_ren' hρ]
    rw [hsort, mapM_map_id (fun a => ren_gIndx hρ g a), mapM_map_id (fun a => ren_gStates hρ g a)]
    refine Py.bind_map' (fun is => ?_)
    refine Py.bind_map' (fun vs => ?_)
    rfl
  · rfl

theorem ren_fastInit (g : NetworkGraph) (n : Label) : (renameGraph ρ g).fastInit (ρ n) = renameGraph ρ <$> g.fastInit n := by
  unfold NetworkGraph.fastInit
  have h1 : (renameGraph ρ g).addNodes (renameGraph ρ g).struct.labels = renameGraph ρ (g.addNodes g.struct.labels) := ren_addNodes hρ g _
  dsimp only
  rw [h1]
  have h2 : (renameGraph ρ (g.addNodes g.struct.labels)).addEdges (renameGraph ρ (g.addNodes g.struct.labels)).struct.edges
      = renameGraph ρ ((g.addNodes g.struct.labels).addEdges (g.addNodes g.struct.labels).struct.edges) := ren_addEdges hρ _ _
  rw [h2]
  set g1 := (g.addNodes g.struct.labels).addEdges (g.addNodes g.struct.labels).struct.edges
  rw [ren_orderedParents hρ, ren_gStates hρ, ren_gIndx hρ]
  refine Py.bind_map (fun info => ?_)
  refine Py.bind_map' (fun c => ?_)
  refine Py.bind_map' (fun i => ?_)
  rfl

/-! ## Parameter estimation -/

theorem ren_computeOn (t : Trajectory) (g : NetworkGraph) (n : Label) : computeOn t (renameGraph ρ g) (ρ n) = renameCims ρ <$> computeOn t g n := by
  unfold computeOn ParamsEst.fastInit ParamsEst.new ParamsEst.computeParameters
  dsimp only
  cases hd : g.derived with
  | none =>
    have : (renameGraph ρ g).derived = none := by simp [renameGraph, hd]
    rw [this]
    rfl
  | some d =>
    have hd' : (renameGraph ρ g).derived = some (renameDerived ρ d) := by simp [renameGraph, hd]
    rw [hd']
    dsimp only
    rw [ren_gStates hρ]
    cases g.getStatesNumber n with
    | error e => rfl
    | ok c =>
      simp only [Except.bind_ok', Except.pure_eq_ok', hd, hd']
      rw [ren_gIndx hρ]
      cases g.getNodeIndx n with
      | error e => rfl
      | ok i =>
        simp only [Except.bind_ok', SetOfCims.new, if_true]
        refine Eq.trans (congrArg (· >>= _) (?_ : _ = (fun r : ParamsEst × SetOfCims =>
          (({ r.1 with graph := renameGraph ρ g, sofc := r.1.sofc.map (renameCims ρ) } : ParamsEst), renameCims ρ r.2)) <$> _))
          (Py.bind_map (h := renameCims ρ) (fun r => rfl))
        refine Py.bind_map' (fun T => ?_)
        refine Py.bind_map' (fun M => ?_)
        rfl

theorem ren_estimate (t : Trajectory) (g : NetworkGraph) (n : Label) :
    ParamsEst.estimate t (renameGraph ρ g) (ρ n) = renameCims ρ <$> ParamsEst.estimate t g n := by
  have e : ∀ (g : NetworkGraph) (n : Label), ParamsEst.estimate t g n = (g.fastInit n >>= fun g' => computeOn t g' n) := fun _ _ => rfl
  rw [e, e, ren_fastInit hρ]
  exact Py.bind_map (fun g' => ren_computeOn hρ t g' n)

end

end PyCTBN
