import Verif.Model.Search
import Verif.Model.FamScore
import Verif.Model.Ctpc
import Mathlib.Data.Finset.Dedup
import Mathlib.Data.Finset.SDiff
import Mathlib.Data.Finset.Card

/-!
# Model of `PyCTBN/PyCTBN/estimators/structure_score_based_estimator.py` and of the rest of
`PyCTBN/PyCTBN/estimators/structure_estimator.py`

A Python `set` of edges is a `Finset`; its iteration order, on which nothing below depends, is that of the per-node results.
-/

namespace PyCTBN

/-- The parts of an estimator object that `estimate_structure` changes. -/
structure Estimator where
  /-- `_sample_path.structure` -/
  struct : Structure
  /-- `_complete_graph` -/
  complete : DiGraph

/-- `itertools.permutations(l, 2)`. -/
def permutations2 (l : List Label) : List Edge :=
  l.zipIdx.flatMap (fun a => (l.zipIdx.filter (fun b => decide (b.2 ≠ a.2))).map (fun b => (a.1, b.1)))

/-- `build_complete_graph`, structure_estimator.py lines 65-77. -/
def buildCompleteGraph (ids : List Label) : DiGraph :=
  (ids.foldl DiGraph.touch DiGraph.empty).addEdgesFrom (permutations2 ids)

namespace Estimator

/-- The part of `__init__`, structure_estimator.py lines 39-45, that concerns these members. -/
def new (s : Structure) : Estimator := ⟨s, buildCompleteGraph s.labels⟩

/-- `has_prior_net_structure`, sample_path.py lines 88-90. -/
def hasPrior (e : Estimator) : Bool := decide (e.struct.edges ≠ [])

/-- `adjacency_matrix`, structure_estimator.py lines 125-131: `nx.adj_matrix(G, nodes)` of networkx 2.5 raises on an empty or
repeating node list and ignores nodes that `G` lacks. -/
def adjacencyMatrix (e : Estimator) (nodes : List Label) : Py (List (List Bool)) :=
  if nodes = [] then .error .networkXError
  else if ¬ nodes.Nodup then .error .networkXError
  else .ok (nodes.map (fun a => nodes.map (fun b => decide ((a, b) ∈ e.complete.edges))))

/-- `spurious_edges`, structure_estimator.py lines 133-145, with `nx.difference(R, G)`: the edges of `R` that are not in `G`;
`NetworkXError` if the node sets differ. -/
def spuriousEdges (e : Estimator) : Py (List Edge) :=
  if ¬ e.hasPrior then .ok []
  else
    let real := (e.struct.labels.foldl DiGraph.touch DiGraph.empty).addEdgesFrom e.struct.edges
    if (real.nodes.map Prod.fst).toFinset ≠ (e.complete.nodes.map Prod.fst).toFinset then .error .networkXError
    else .ok (real.edgesView.filter (fun x => decide (x ∉ e.complete.edges)))

/-- What `save_results`, structure_estimator.py lines 98-106, writes: the nodes and the links of the graph. -/
def savedResults (e : Estimator) : List Label × List Edge := (e.complete.nodes.map Prod.fst, e.complete.edgesView)

/-- The effect of an `estimate_structure` that returns the edges `es`: structure_score_based_estimator.py lines 90 and
156-158, structure_constraint_based_estimator.py lines 225 and 246-248. -/
def update (e : Estimator) (es : List Edge) : Estimator :=
  ⟨e.struct.cleanEdges, DiGraph.empty.addEdgesFrom es⟩

end Estimator

/-- Arguments of `estimate_structure`. -/
structure SBArgs where
  maxParents : Option ℤ
  iterations : Nat
  patience : Option ℤ
  tabuLength : Option ℤ
  tabuDuration : Option ℤ
  optimizer : String

/-- `estimate_parents`, structure_score_based_estimator.py lines 167-211. -/
def estimateParents {S : Type} [LinearOrder S] (E : SearchEnv S) (a : SBArgs) (pick drop : Nat → Nat) (n : Label) : Py (List Edge) :=
  if a.optimizer = "tabu" then do
    let r ← E.tabu n a.maxParents a.iterations a.patience a.tabuLength a.tabuDuration pick drop
    return r.1
  else do
    let r ← E.hill n a.maxParents a.iterations a.patience pick drop
    return r.1

/-- The score of a node on an initialised graph: structure_score_based_estimator.py lines 233-245. -/
noncomputable def famScoreOn (t : Trajectory) (tau alpha : ℝ) (n : Label) (g : NetworkGraph) : Py ℝ := do
  let s ← computeOn t g n
  FamScore.getFamScore s.cims tau alpha

/-- What the optimizers see of the score-based estimator. -/
noncomputable def sbEnv (s : Structure) (t : Trajectory) (tau alpha : ℝ) (removable : List (List Bool)) : SearchEnv ℝ where
  struct := s
  removable := removable
  score := famScoreOn t tau alpha

/-- The numbers printed, lines 133-151: precision and recall, or nothing when a division by zero is caught (line 152). -/
def report (trueEdges est : Finset Edge) : Option (ℚ × ℚ) :=
  let nFake : ℤ := (est \ trueEdges).card
  let nMissing : ℤ := (trueEdges \ est).card
  let nTrue : ℤ := trueEdges.card - nMissing
  if nTrue + nFake = 0 then none
  else if nTrue + nMissing = 0 then none
  else some ((nTrue : ℚ) / ((nTrue + nFake : ℤ) : ℚ), (nTrue : ℚ) / ((nTrue + nMissing : ℤ) : ℚ))

/-- The per-node results in order: `[estimate_parents(n, …) for n in self._nodes]`, line 116. -/
def perNodeSequential (run : Label → Py (List Edge)) (nodes : List Label) : Py (List (List Edge)) := nodes.mapM run

/-- The per-node results from a process pool, lines 118-126: `order` is the order in which the tasks are completed.  Leaving the
`with` block waits for all workers, so one that hangs blocks; then the results come in the order of the nodes, and the
exception of the first failing one is raised (when line 130 consumes the results). -/
def perNodeParallel (run : Label → Py (List Edge)) (nodes order : List Label) : Py (List (List Edge)) :=
  let done : List (Label × Py (List Edge)) := order.map (fun n => (n, run n))
  if done.any (fun r => decide (r.2 = .error .blocked)) then .error .blocked
  else nodes.mapM (fun n => match done.lookup n with
    | some r => r
    | none => .error .blocked)

/-- `estimate_structure`, lines 58-160; `order = none` with `disable_multiprocessing`, otherwise the order of completion.
`pick` and `drop` are the random numbers of each node's search (in a process pool every worker has its own generator).
Returns the set of edges and what is printed, and the estimator
afterwards: the structure is cleaned first (line 90), so also when an exception leaves the method. -/
def estimateStructure {S : Type} [LinearOrder S] (score : Label → NetworkGraph → Py S) (removable : List (List Bool))
    (e : Estimator) (a : SBArgs) (order : Option (List Label)) (pick drop : Label → Nat → Nat) :
    Py (Finset Edge × Option (ℚ × ℚ)) × Estimator :=
  let s := e.struct.cleanEdges
  let E : SearchEnv S := ⟨s, removable, score⟩
  let run := fun n => estimateParents E a (pick n) (drop n) n
  match (match order with
    | none => perNodeSequential run s.labels
    | some o => perNodeParallel run s.labels o) with
  | .error x => (.error x, { e with struct := s })
  | .ok ess => (.ok (ess.flatten.toFinset, report e.struct.edges.toFinset ess.flatten.toFinset), e.update ess.flatten.dedup)

/-- `ctpc_algorithm`, structure_constraint_based_estimator.py lines 205-249, with its effect on the structure (line 225) and on
the graph (lines 247-248): `order = none` with `disable_multiprocessing`. -/
def CBEnv.ctpcEstimate (E : CBEnv) (st : CBState) (e : Estimator) (order : Option (List Label)) : Py (Finset Edge) × Estimator :=
  match (match order with
    | none => (E.ctpcSequential st).1
    | some o => (E.ctpcParallel st o).1) with
  | .error x => (.error x, { e with struct := e.struct.cleanEdges })
  | .ok es => (.ok es.toFinset, e.update es.dedup)

end PyCTBN
