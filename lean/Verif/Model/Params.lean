import Verif.Model.Graph
import Mathlib.Algebra.BigOperators.Group.List.Basic
import Mathlib.Algebra.Order.Field.Rat

/-!
# Model of `trajectory.py`, `conditional_intensity_matrix.py`, `set_of_cims.py` and `parameters_estimator.py`

Arrays are lists (of lists), time deltas and CIM coefficients exact rationals, states integers.
-/

namespace PyCTBN

/-! ## The numpy calls used -/

/-- `row[cols]`: numpy fancy indexing of one row, `IndexError` when a column is out of range. -/
def selectCols {α : Type _} (row : List α) (cols : List Nat) : Py (List α) := cols.mapM (pyGet row)

/-- Length of the result of `np.bincount(xs, minlength=m)`: `max(m, max(xs) + 1)`. -/
def bincountSize (xs : List ℤ) (m : Nat) : Nat := xs.foldl (fun acc x => max acc (x.toNat + 1)) m

/-- `np.bincount(xs, ws, minlength=m)`: `ValueError` on a negative entry or on a length mismatch; otherwise entry `k` is
the total weight of the positions holding `k`. -/
def npBincountW (xs : List ℤ) (ws : List ℚ) (m : Nat) : Py (List ℚ) :=
  if xs.any (fun x => decide (x < 0)) then .error .valueError
  else if ws.length ≠ xs.length then .error .valueError
  else .ok ((List.range (bincountSize xs m)).map
    (fun k : Nat => (((xs.zip ws).filter (fun p => decide (p.1 = (k : ℤ)))).map Prod.snd).sum))

/-- `np.bincount(xs, minlength=m)` without weights. -/
def npBincount (xs : List ℤ) (m : Nat) : Py (List Nat) :=
  if xs.any (fun x => decide (x < 0)) then .error .valueError
  else .ok ((List.range (bincountSize xs m)).map (fun k : Nat => (xs.filter (fun x => decide (x = (k : ℤ)))).length))

/-- Consecutive blocks of length `c`. -/
def chunks {α : Type _} (c : Nat) (l : List α) : List (List α) :=
  (List.range (l.length / c)).map (fun i => (l.drop (i * c)).take c)

/-- `arr.reshape(-1, c)` of a one-dimensional array: `ValueError` unless `c` divides the size. -/
def reshape2 {α : Type _} (c : Nat) (l : List α) : Py (List (List α)) :=
  if c = 0 ∨ l.length % c ≠ 0 then .error .valueError else .ok (chunks c l)

/-- `arr.reshape(-1, c, d)` of a one-dimensional array. -/
def reshape3 {α : Type _} (c d : Nat) (l : List α) : Py (List (List (List α))) :=
  if c * d = 0 ∨ l.length % (c * d) ≠ 0 then .error .valueError
  else .ok ((chunks (c * d) l).map (chunks d))

/-- `target[:] = value` for a target of `k` (outer) entries: the outer sizes must agree, or the value has outer size one
and is broadcast; otherwise `ValueError`. -/
def assignAll {α : Type _} (k : Nat) (value : List α) : Py (List α) :=
  if value.length = k then .ok value
  else match value with
    | [v] => .ok (List.replicate k v)
    | _ => .error .valueError

/-- `arr[idx] = vals` on a one-dimensional array (all indexes in range). -/
def setMany {α : Type _} (l : List α) (idx : List Nat) (vals : List α) : List α :=
  (idx.zip vals).foldl (fun acc p => acc.set p.1 p.2) l

/-! ## `Trajectory` -/

/-- `Trajectory`, trajectory.py lines 22-27. -/
structure Trajectory where
  /-- `_times` -/
  times : List ℚ
  /-- `_actual_trajectory`: current states followed by next states -/
  rows : List (List ℤ)
  /-- `_original_cols_number` -/
  origCols : Nat
deriving DecidableEq

namespace Trajectory

/-- `trajectory` property, trajectory.py lines 29-31. -/
def trajectory (t : Trajectory) : List (List ℤ) := t.rows.map (fun r => r.take (t.origCols - 1))

/-- `complete_trajectory` property, trajectory.py lines 33-35. -/
def completeTrajectory (t : Trajectory) : List (List ℤ) := t.rows

end Trajectory

/-! ## Parameter estimation -/

/-- `np.sum(row[cols] * struct / struct[0]).astype(int)` for one row: parameters_estimator.py lines 84-85 and 108.
The quotient is exact in the code's floats for every row the library produces; `astype(int)` truncates towards zero.
(Simplification: `struct[0] = 0`, a variable without states, gives `NaN` in the code and 0 here.) -/
def rowIndex (cols : List Nat) (struct : List Nat) (row : List ℤ) : Py ℤ := do
  let vals ← selectCols row cols
  let s₀ ← pyGet struct 0
  return Int.tdiv ((List.zipWith (fun (v : ℤ) (s : Nat) => v * (s : ℤ)) vals struct).sum) (s₀ : ℤ)

/-- `compute_state_res_time_for_node`, parameters_estimator.py lines 65-87; `k × c` is the shape of `T`. -/
def computeStateResTime (times : List ℚ) (trajectory : List (List ℤ)) (cols struct : List Nat) (k c : Nat) :
    Py (List (List ℚ)) := do
  let idx ← trajectory.mapM (rowIndex cols struct)
  let minlength ← pyGet struct (struct.length - 1)
  let counts ← npBincountW idx times minlength
  let shaped ← reshape2 c counts
  assignAll k shaped

/-- Diagonal positions in the raveled `k × c × c` array, parameters_estimator.py lines 105-106. -/
def diagIndices (k c : Nat) : List Nat := (List.range (k * c)).map (fun x => x * c + x % c)

/-- The diagonal fix-up of parameters_estimator.py lines 110-112 on a `k × c × c` array: the raveled view is zeroed on the
diagonal, then the diagonal receives the row sums. -/
def fixDiagonal (k c : Nat) (m : List (List (List Nat))) : List (List (List Nat)) :=
  let flat := m.flatten.flatten
  let zeroed := setMany flat (diagIndices k c) (List.replicate (k * c) 0)
  let sums := (chunks c zeroed).map List.sum
  let fixed := setMany zeroed (diagIndices k c) sums
  (chunks (c * c) fixed).map (chunks c)

/-- `compute_state_transitions_for_a_node`, parameters_estimator.py lines 90-112; `k × c × c` is the shape of `M`. -/
def computeStateTransitions (nodeIndx : Nat) (trajectory : List (List ℤ)) (cols struct : List Nat) (k c : Nat) :
    Py (List (List (List Nat))) := do
  let nexts ← trajectory.mapM (fun row => pyGet row (row.length / 2 + nodeIndx))
  let kept := ((trajectory.zip nexts).filter (fun p => decide (0 ≤ p.2))).map Prod.fst
  let idx ← kept.mapM (rowIndex cols struct)
  let minlength ← pyGet struct (struct.length - 1)
  let counts ← npBincount idx minlength
  let shaped ← reshape3 c c counts
  let m ← assignAll k shaped
  return fixDiagonal k c m

/-! ## `ConditionalIntensityMatrix` and `SetOfCims` -/

/-- `ConditionalIntensityMatrix`, conditional_intensity_matrix.py lines 17-26. -/
structure Cim where
  resTimes : List ℚ
  trans : List (List Nat)
  cim : List (List ℚ)
deriving DecidableEq

/-- `compute_cim_coefficients`, conditional_intensity_matrix.py lines 28-33 on the float copy of the counts made by the
constructor (line 26): the diagonal is negated, then `(entry + 1) / (T[row] + 1)`. -/
def cimCoefficients (t : List ℚ) (m : List (List Nat)) : List (List ℚ) :=
  m.zipIdx.map (fun (row, i) =>
    row.zipIdx.map (fun (e, j) =>
      ((if i = j then -(e : ℚ) else (e : ℚ)) + 1) / ((t[i]?.getD 0) + 1)))

/-- Constructor plus `compute_cim_coefficients`. -/
def Cim.build (t : List ℚ) (m : List (List Nat)) : Cim := ⟨t, m, cimCoefficients t m⟩

/-- `SetOfCims`, set_of_cims.py lines 29-44 (the counters are `None` once the CIMs are built). -/
structure SetOfCims where
  nodeId : Label
  parentsStates : List Nat
  nodeStates : Nat
  pCombs : List (List Nat)
  /-- are `_state_residence_times` / `_transition_matrices` still allocated (not `None`)? -/
  allocated : Bool
  cims : List Cim
deriving DecidableEq

namespace SetOfCims

/-- Number of parent combinations: the first dimension allocated in `build_times_and_transitions_structures`,
set_of_cims.py lines 46-56. -/
def combsNumber (s : SetOfCims) : Nat := if s.parentsStates = [] then 1 else s.parentsStates.prod

/-- `SetOfCims.__init__` without `cims`, set_of_cims.py lines 29-44. -/
def new (nodeId : Label) (parentsStates : List Nat) (nodeStates : Nat) (pCombs : List (List Nat)) : SetOfCims :=
  ⟨nodeId, parentsStates, nodeStates, pCombs, true, []⟩

/-- `build_cims`, set_of_cims.py lines 58-73 (`zip` truncates). -/
def buildCims (s : SetOfCims) (t : List (List ℚ)) (m : List (List (List Nat))) : SetOfCims :=
  { s with cims := s.cims ++ List.zipWith Cim.build t m, allocated := false }

/-- Columns of a row selected by a boolean mask. -/
def maskRow {α : Type _} (mask : List Bool) (row : List α) : List α :=
  ((row.zip mask).filter (fun p => p.2)).map Prod.fst

/-- `np.all(row == comb)` for one row, set_of_cims.py line 89, with numpy's broadcasting: a single entry on either side is compared
with every entry of the other side. -/
def rowEquals (row comb : List Nat) : Bool :=
  if row.length = comb.length then decide (row = comb)
  else match row, comb with
    | row, [x] => row.all (fun y => decide (y = x))
    | [x], comb => comb.all (fun y => decide (x = y))
    | _, _ => false

/-- `filter_cims_with_mask`, set_of_cims.py lines 75-90.  A mask of at most one entry selects everything; otherwise the
rows of `p_combs` equal to `comb` on the masked columns are selected (`IndexError` when the mask has not one entry per
column; when the shapes do not broadcast the comparison or the reduction of its result raises an error that is a `ValueError`
in all versions of numpy). -/
def filterCims (s : SetOfCims) (mask : List Bool) (comb : List Nat) : Py (List Cim) :=
  if mask.length ≤ 1 then .ok s.cims
  else if s.pCombs.any (fun r => decide (r.length ≠ mask.length)) then .error .indexError
  else if comb.length ≠ mask.count true ∧ comb.length ≠ 1 ∧ mask.count true ≠ 1 then .error .valueError
  else
    let flat := (s.pCombs.zipIdx.filter (fun p => rowEquals (maskRow mask p.1) comb)).map Prod.snd
    flat.mapM (pyGet s.cims)

/-- `get_cims_number`, set_of_cims.py lines 100-101. -/
def cimsNumber (s : SetOfCims) : Nat := s.cims.length

end SetOfCims

/-! ## `ParametersEstimator` -/

/-- `ParametersEstimator`, parameters_estimator.py lines 24-29. -/
structure ParamsEst where
  traj : Trajectory
  graph : NetworkGraph
  sofc : Option SetOfCims
deriving DecidableEq

namespace ParamsEst

/-- `ParametersEstimator.__init__`, parameters_estimator.py lines 24-29. -/
def new (t : Trajectory) (g : NetworkGraph) : ParamsEst := ⟨t, g, none⟩

/-- `fast_init`, parameters_estimator.py lines 31-40 (`None[2]` is a `TypeError` on a graph without derived data). -/
def fastInit (e : ParamsEst) (n : Label) : Py ParamsEst := do
  match e.graph.derived with
  | none => .error .typeError
  | some d =>
    let c ← e.graph.getStatesNumber n
    return { e with sofc := some (SetOfCims.new n d.info.vals c d.pCombs) }

/-- `compute_parameters_for_node`, parameters_estimator.py lines 42-63. The second call without a new `fast_init` finds
`None` instead of the counters (`None.shape`: `AttributeError`). -/
def computeParameters (e : ParamsEst) (n : Label) : Py (ParamsEst × SetOfCims) := do
  let i ← e.graph.getNodeIndx n
  match e.sofc, e.graph.derived with
  | some s, some d =>
    if s.allocated then
      let t ← computeStateResTime e.traj.times e.traj.trajectory d.timeFilter d.timeIdx s.combsNumber s.nodeStates
      let m ← computeStateTransitions i e.traj.completeTrajectory d.transFilter d.transIdx s.combsNumber s.nodeStates
      let s' := s.buildCims t m
      return ({ e with sofc := some s' }, s')
    else .error .attributeError
  | _, _ => .error .attributeError

/-- The whole estimation of one node as every caller in the library performs it
(structure_constraint_based_estimator.py lines 102-106, structure_score_based_estimator.py lines 230-245, README): `graph.fast_init`, a fresh estimator,
`fast_init`, `compute_parameters_for_node`. -/
def estimate (t : Trajectory) (g : NetworkGraph) (n : Label) : Py SetOfCims := do
  let g' ← g.fastInit n
  let e ← (ParamsEst.new t g').fastInit n
  let (_, s) ← e.computeParameters n
  return s

end ParamsEst
end PyCTBN
