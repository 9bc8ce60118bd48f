import Verif.Model.Cache
import Verif.Model.StructEst
import Verif.Model.Params

/-!
# Model of the constraint-based search

`PyCTBN/PyCTBN/estimators/structure_constraint_based_estimator.py` and
`PyCTBN/PyCTBN/optimizers/constraint_based_optimizer.py`.

Every function that can change the estimator returns its outcome together with the new state, so that the state left
behind by an exception is visible.
-/

namespace PyCTBN

/-- The three ways `independence_test` can end (structure_constraint_based_estimator.py lines 131-172): `True`; `False`; and
`False` after having frozen the tested edge (lines 153-154). -/
inductive Verdict where
  | accept | reject | rejectMark
deriving DecidableEq, Repr

/-- What the estimator reads and never changes: the sample path's structure (from which `_nodes`, `_nodes_vals` and
`_nodes_indxs` are taken, structure_estimator.py lines 40-43), its `total_variables_count`, its trajectories, and the
two-CIM test `independence_test` as a function of `child_states_numb`, the two CIMs and the thumb value. -/
structure CBEnv where
  struct : Structure
  tot : Nat
  traj : Trajectory
  twoCim : Nat → Cim → Cim → Nat → Py Verdict

/-- What the estimator changes: `_cache` and `_removable_edges_matrix`. -/
structure CBState where
  cache : Cache SetOfCims
  removable : List (List Bool)

/-- `ParametersEstimator(trajectories, g)`, `fast_init`, `compute_parameters_for_node` on an already initialised graph:
structure_constraint_based_estimator.py lines 104-106 and 114-116. -/
def computeOn (t : Trajectory) (g : NetworkGraph) (n : Label) : Py SetOfCims := do
  let e ← (ParamsEst.new t g).fastInit n
  let (_, s) ← e.computeParameters n
  return s

namespace CBEnv

/-- `arr[np.isin(self._nodes, ls)]` for an array aligned with the nodes. -/
def masked {α : Type} (E : CBEnv) (arr : List α) (ls : List Label) : List α :=
  SetOfCims.maskRow (E.struct.labels.map (fun l => decide (l ∈ ls))) arr

/-- The structure `s2`, structure_constraint_based_estimator.py lines 95-101. -/
def structure2 (E : CBEnv) (p child : Label) (S : List Label) : Structure :=
  let info := S ++ [child] ++ [p]
  { labels := E.masked E.struct.labels info
    indexes := E.masked E.struct.indexes info
    vals := E.masked E.struct.vals info
    edges := (p :: S).map (fun q => (q, child))
    total := E.tot }

/-- Lines 91-107: the CIMs given the test parent and the separating set, from the cache or estimated (and cached); the graph
`g2` is bound only in the latter case. -/
def withParent (E : CBEnv) (cache : Cache SetOfCims) (p child : Label) (S : List Label) :
    Py (Option NetworkGraph × SetOfCims) × Cache SetOfCims :=
  match cache.find (p :: S) with
  | some v => (.ok (none, v), cache)
  | none =>
    match (do
      let g2 ← (NetworkGraph.new (E.structure2 p child S)).fastInit child
      let v ← computeOn E.traj g2 child
      return (g2, v)) with
    | .error e => (.error e, cache)
    | .ok (g2, v) => (.ok (some g2, v), cache.put (p :: S) v)

/-- Lines 109-117: the CIMs given the separating set only; `g2` unbound is an `UnboundLocalError`. -/
def withoutParent (E : CBEnv) (cache : Cache SetOfCims) (g2 : Option NetworkGraph) (p child : Label) (S : List Label) :
    Py SetOfCims × Cache SetOfCims :=
  match cache.find S with
  | some v => (.ok v, cache)
  | none =>
    match (do
      let g ← match g2 with
        | none => Except.error PyErr.unboundLocalError
        | some g => g.removeNode p
      let g ← g.fastInit child
      computeOn E.traj g child) with
    | .error e => (.error e, cache)
    | .ok v => (.ok v, cache.put S v)

/-- `compute_thumb_value`, lines 174-190. -/
def computeThumbValue (parentVal childVal : Nat) (setVals : List Nat) : Nat :=
  setVals.foldl (fun df v => df * v) ((childVal - 1) ^ 2 * parentVal)

/-- Lines 118-123 (`0.0` is the natural number 0). -/
def thumb (E : CBEnv) (p : Label) (S : List Label) (c : Nat) : Py Nat :=
  if 2 < c then do
    let pv ← E.struct.getStatesNumber p
    return computeThumbValue pv c (E.masked E.struct.vals S)
  else .ok 0

/-- Inner loop, lines 126-128: the first test that does not accept decides. -/
def compareInner (E : CBEnv) (c thumb : Nat) (cim1 : Cim) : List Cim → Py Verdict
  | [] => .ok .accept
  | cim2 :: rest => do
    match ← E.twoCim c cim1 cim2 thumb with
    | .accept => compareInner E c thumb cim1 rest
    | v => return v

/-- Outer loop, lines 124-129. -/
def compareLoop (E : CBEnv) (c thumb : Nat) (sofc2 : SetOfCims) (mask : List Bool) : List (Cim × List Nat) → Py Verdict
  | [] => .ok .accept
  | (cim1, comb) :: rest => do
    let conds ← sofc2.filterCims mask comb
    match ← compareInner E c thumb cim1 conds with
    | .accept => compareLoop E c thumb sofc2 mask rest
    | v => return v

/-- Lines 86-89: `sorted_parents != test_parent`. -/
def cimsFilter (E : CBEnv) (p : Label) (S : List Label) : List Bool :=
  (E.struct.labels.filter (fun l => decide (l ∈ S ++ [p]))).map (fun l => decide (l ≠ p))

/-- `complete_test` up to the freezing of the edge: lines 82-129. -/
def verdict (E : CBEnv) (cache : Cache SetOfCims) (p child : Label) (S : List Label) (c : Nat) :
    Py Verdict × Cache SetOfCims :=
  match E.withParent cache p child S with
  | (.error e, cache) => (.error e, cache)
  | (.ok (g2, sofc2), cache) =>
    match E.withoutParent cache g2 p child S with
    | (.error e, cache) => (.error e, cache)
    | (.ok sofc1, cache) =>
      ((do
        let th ← E.thumb p S c
        E.compareLoop c th sofc2 (E.cimsFilter p S) (sofc1.cims.zip sofc1.pCombs)), cache)

/-- `complete_test`, structure_constraint_based_estimator.py lines 63-129, with the assignment of line 153. -/
def completeTest (E : CBEnv) (st : CBState) (p child : Label) (S : List Label) (c i j : Nat) : Py Bool × CBState :=
  match E.verdict st.cache p child S c with
  | (.error e, cache) => (.error e, ⟨cache, st.removable⟩)
  | (.ok .accept, cache) => (.ok true, ⟨cache, st.removable⟩)
  | (.ok .reject, cache) => (.ok false, ⟨cache, st.removable⟩)
  | (.ok .rejectMark, cache) =>
    match setFalse st.removable i j with
    | .error e => (.error e, ⟨cache, st.removable⟩)
    | .ok m => (.ok false, ⟨cache, m⟩)

end CBEnv

/-! ## The search loops (constraint_based_optimizer.py lines 66-85)

Parametrised by the state, the look-up of the removable flag and the complete test, so that the search can also be run with
other tests. -/

/-- The two calls the loops make to the estimator. -/
structure CBTest (σ : Type) where
  /-- `_removable_edges_matrix[i][j]` for a candidate parent, lines 73-75 -/
  flag : Label → σ → Py Bool
  /-- `complete_test(test_parent, node_id, parents_set, …)`, line 78 -/
  test : Label → List Label → σ → Py Bool × σ

variable {σ : Type}

/-- `for parents_set in S`, lines 77-82: was some test accepted? -/
def subsetLoop (T : CBTest σ) (p : Label) : List (List Label) → σ → Py Bool × σ
  | [], s => (.ok false, s)
  | S :: rest, s =>
    match T.test p S s with
    | (.error e, s) => (.error e, s)
    | (.ok true, s) => (.ok true, s)
    | (.ok false, s) => subsetLoop T p rest s

/-- One round of the inner loop, lines 71-82: is the edge from `p` to be removed? -/
def visit (T : CBTest σ) (b : Nat) (u : List Label) (p : Label) (s : σ) : Py Bool × σ :=
  match T.flag p s with
  | .error e => (.error e, s)
  | .ok false => (.ok false, s)
  | .ok true =>
    match subSetsOfSize u b p with
    | .error e => (.error e, s)
    | .ok Ss => subsetLoop T p Ss s

/-- Inner `while`, lines 69-84. -/
def innerLoop (T : CBTest σ) (child : Label) (b : Nat) (u : List Label) (g : NetworkGraph) (idx : Nat) (s : σ) :
    Py (List Label × NetworkGraph) × σ :=
  if h : idx < u.length then
    match visit T b u u[idx] s with
    | (.error e, s) => (.error e, s)
    | (.ok true, s) => innerLoop T child b (u.erase u[idx]) (g.removeEdges [(u[idx], child)]) idx s
    | (.ok false, s) => innerLoop T child b u g (idx + 1) s
  else (.ok (u, g), s)
termination_by u.length - idx
decreasing_by
  · have := List.length_erase_of_mem (List.getElem_mem h)
    omega
  · omega

theorem innerLoop_length (T : CBTest σ) (child : Label) (b : Nat) (u : List Label) (g : NetworkGraph) (idx : Nat) (s : σ)
    {u' : List Label} {g' : NetworkGraph} {s' : σ} (h : innerLoop T child b u g idx s = (.ok (u', g'), s')) :
    u'.length ≤ u.length := by
  fun_induction innerLoop T child b u g idx s with
  | case1 => simp at h
  | case2 u g idx s hlt s1 hv ih =>
    have := ih h
    rw [List.length_erase_of_mem (List.getElem_mem hlt)] at this
    omega
  | case3 u g idx s hlt s1 hv ih => exact ih h
  | case4 => simp only [Prod.mk.injEq, Except.ok.injEq] at h; rw [h.1.1]

/-- Outer `while`, lines 67-85. -/
def outerLoop (T : CBTest σ) (child : Label) (b : Nat) (u : List Label) (g : NetworkGraph) (s : σ) :
    Py (List Label × NetworkGraph) × σ :=
  if b < u.length then
    match h : innerLoop T child b u g 0 s with
    | (.error e, s) => (.error e, s)
    | (.ok (u', g'), s) => outerLoop T child (b + 1) u' g' s
  else (.ok (u, g), s)
termination_by u.length - b
decreasing_by
  have := innerLoop_length T child b u g 0 _ h
  omega

namespace CBEnv

/-- The calls of the optimizer to the estimator for one child: lines 73-75 and 78. (`get_node_indx` has no effect, so that
calling it again for `complete_test` instead of reusing `i` and `j` changes nothing.) -/
def calls (E : CBEnv) (child : Label) (c : Nat) : CBTest CBState where
  flag p st := do
    let i ← E.struct.getNodeIndx p
    let j ← E.struct.getNodeIndx child
    getFlag st.removable i j
  test p S st :=
    match E.struct.getNodeIndx p, E.struct.getNodeIndx child with
    | .ok i, .ok j => E.completeTest st p child S c i j
    | .error e, _ => (.error e, st)
    | _, .error e => (.error e, st)

/-- `other_nodes`, constraint_based_optimizer.py line 59. -/
def others (E : CBEnv) (child : Label) : List Label := E.struct.labels.filter (fun l => decide (l ≠ child))

/-- `graph` before the search, constraint_based_optimizer.py lines 57-62. -/
def startGraph (E : CBEnv) (child : Label) : NetworkGraph :=
  (E.others child).foldl (fun g p => g.addEdges [(p, child)]) (NetworkGraph.new E.struct)

/-- `optimize_structure`, constraint_based_optimizer.py lines 48-87: the cache is cleared only when the search ends without
exception. -/
def optimize (E : CBEnv) (st : CBState) (child : Label) : Py (List Edge) × CBState :=
  match E.struct.getStatesNumber child with
  | .error e => (.error e, st)
  | .ok c =>
    match outerLoop (E.calls child c) child 0 (E.others child) (E.startGraph child) st with
    | (.error e, st) => (.error e, st)
    | (.ok (_, g), st) => (.ok g.edges, { st with cache := st.cache.clear })

/-- The list comprehension of structure_constraint_based_estimator.py line 233. -/
def ctpcSeqLoop (E : CBEnv) : List Label → CBState → Py (List (List Edge)) × CBState
  | [], st => (.ok [], st)
  | n :: ns, st =>
    match E.optimize st n with
    | (.error e, st) => (.error e, st)
    | (.ok es, st) =>
      match ctpcSeqLoop E ns st with
      | (.error e, st) => (.error e, st)
      | (.ok ess, st) => (.ok (es :: ess), st)

/-- `ctpc_algorithm(disable_multiprocessing=True)`, lines 205-249: the result is the `set` of all per-node edges, here the
list of its elements, possibly with repetitions.  (`clean_structure_edges`, line 225, changes only the edges of the sample
path's structure, which nothing in the search reads.) -/
def ctpcSequential (E : CBEnv) (st : CBState) : Py (List Edge) × CBState :=
  match E.ctpcSeqLoop E.struct.labels st with
  | (.error e, st) => (.error e, st)
  | (.ok ess, st) => (.ok ess.flatten, st)

/-- `ctpc_algorithm()` with a process pool, lines 239-245.  Every task carries a pickled copy of the estimator as it was
when the pool was started, so a worker's changes are lost; `order` is the order in which the tasks happen to be completed;
`executor.map` yields the results in the order of the nodes and re-raises the exception of the first failing one. -/
def ctpcParallel (E : CBEnv) (st : CBState) (order : List Label) : Py (List Edge) × CBState :=
  let done : List (Label × Py (List Edge)) := order.map (fun n => (n, (E.optimize st n).1))
  ((do
    let ess ← E.struct.labels.mapM (fun n => match done.lookup n with
      | some r => r
      | none => .error .blocked)
    return ess.flatten), st)

end CBEnv
end PyCTBN
