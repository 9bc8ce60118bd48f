import Verif.Model.Importer

/-!
# Floating-point versions of the parameter estimation

The other modules compute with exact rationals.  Here every arithmetic operation that the code performs on `float64` arrays is followed by a
rounding `rnd : ℚ → ℚ` (the "standard model" of floating-point arithmetic: the result of `+ - * /` and of a conversion from `int64` is the exact result, rounded).
Theorems take as hypotheses only that `rnd` has a small relative error, or is exact on small integers; `Spec/Float.lean` states this and
`binRound` below is an instance.  Simplifications: no overflow, underflow, infinities or NaN; integer arrays are exact.
-/

namespace PyCTBN

/-- Sum of a `float64` array from left to right, starting with `0.0`: what `np.bincount` does for the weights of one bin, and `np.sum` for the few
columns of a row. -/
def fsum (rnd : ℚ → ℚ) (ws : List ℚ) : ℚ := ws.foldl (fun a w => rnd (a + w)) 0

/-- `np.sum(row[cols] * struct / struct[0]).astype(int)`, parameters_estimator.py lines 84-85 and 108: the products are integers; the division
converts both operands to `float64`. -/
def rowIndexF (rnd : ℚ → ℚ) (cols : List Nat) (struct : List Nat) (row : List ℤ) : Py ℤ := do
  let vals ← selectCols row cols
  let s₀ ← pyGet struct 0
  return truncInt (fsum rnd (List.zipWith (fun (v : ℤ) (s : Nat) => rnd (rnd ((v * (s : ℤ) : ℤ) : ℚ) / rnd (s₀ : ℚ))) vals struct))

/-- `np.bincount(xs, ws, minlength=m)` with `float64` weights: each bin is summed in the order of the array. -/
def npBincountF (rnd : ℚ → ℚ) (xs : List ℤ) (ws : List ℚ) (m : Nat) : Py (List ℚ) :=
  if xs.any (fun x => decide (x < 0)) then .error .valueError
  else if ws.length ≠ xs.length then .error .valueError
  else .ok ((List.range (bincountSize xs m)).map
    (fun k : Nat => fsum rnd (((xs.zip ws).filter (fun p => decide (p.1 = (k : ℤ)))).map Prod.snd)))

/-- `compute_state_res_time_for_node` in floating point, parameters_estimator.py lines 65-87. -/
def computeStateResTimeF (rnd : ℚ → ℚ) (times : List ℚ) (trajectory : List (List ℤ)) (cols struct : List Nat) (k c : Nat) :
    Py (List (List ℚ)) := do
  let idx ← trajectory.mapM (rowIndexF rnd cols struct)
  let minlength ← pyGet struct (struct.length - 1)
  let counts ← npBincountF rnd idx times minlength
  let shaped ← reshape2 c counts
  assignAll k shaped

/-- `compute_state_transitions_for_a_node` in floating point, parameters_estimator.py lines 90-112: only the row indexes are floats. -/
def computeStateTransitionsF (rnd : ℚ → ℚ) (nodeIndx : Nat) (trajectory : List (List ℤ)) (cols struct : List Nat) (k c : Nat) :
    Py (List (List (List Nat))) := do
  let nexts ← trajectory.mapM (fun row => pyGet row (row.length / 2 + nodeIndx))
  let kept := ((trajectory.zip nexts).filter (fun p => decide (0 ≤ p.2))).map Prod.fst
  let idx ← kept.mapM (rowIndexF rnd cols struct)
  let minlength ← pyGet struct (struct.length - 1)
  let counts ← npBincount idx minlength
  let shaped ← reshape3 c c counts
  let m ← assignAll k shaped
  return fixDiagonal k c m

/-- `compute_cim_coefficients` in floating point, conditional_intensity_matrix.py lines 26-33: `astype(float64)`, `* -1` on the diagonal, `+ 1`, `/ (T + 1)`. -/
def cimCoefficientsF (rnd : ℚ → ℚ) (t : List ℚ) (m : List (List Nat)) : List (List ℚ) :=
  m.zipIdx.map (fun (row, i) =>
    row.zipIdx.map (fun (e, j) =>
      rnd (rnd ((if i = j then rnd (-(rnd (e : ℚ))) else rnd (e : ℚ)) + 1) / rnd ((t[i]?.getD 0) + 1))))

/-- Constructor plus `compute_cim_coefficients`, conditional_intensity_matrix.py lines 17-33. -/
def Cim.buildF (rnd : ℚ → ℚ) (t : List ℚ) (m : List (List Nat)) : Cim := ⟨t, m, cimCoefficientsF rnd t m⟩

/-- `build_cims`, set_of_cims.py lines 58-73. -/
def SetOfCims.buildCimsF (rnd : ℚ → ℚ) (s : SetOfCims) (t : List (List ℚ)) (m : List (List (List Nat))) : SetOfCims :=
  { s with cims := s.cims ++ List.zipWith (Cim.buildF rnd) t m, allocated := false }

namespace ParamsEst

/-- `compute_parameters_for_node` in floating point, parameters_estimator.py lines 42-63. -/
def computeParametersF (rnd : ℚ → ℚ) (e : ParamsEst) (n : Label) : Py (ParamsEst × SetOfCims) := do
  let i ← e.graph.getNodeIndx n
  match e.sofc, e.graph.derived with
  | some s, some d =>
    if s.allocated then
      let t ← computeStateResTimeF rnd e.traj.times e.traj.trajectory d.timeFilter d.timeIdx s.combsNumber s.nodeStates
      let m ← computeStateTransitionsF rnd i e.traj.completeTrajectory d.transFilter d.transIdx s.combsNumber s.nodeStates
      let s' := s.buildCimsF rnd t m
      return ({ e with sofc := some s' }, s')
    else .error .attributeError
  | _, _ => .error .attributeError

/-- The whole estimation of one node (see `estimate`) in floating point. -/
def estimateF (rnd : ℚ → ℚ) (t : Trajectory) (g : NetworkGraph) (n : Label) : Py SetOfCims := do
  let g' ← g.fastInit n
  let e ← (ParamsEst.new t g').fastInit n
  let (_, s) ← e.computeParametersF rnd n
  return s

end ParamsEst

/-- `series.diff()` in floating point, abstract_importer.py line 84. -/
def seriesDiffF (rnd : ℚ → ℚ) : List Cell → List Cell
  | [] => []
  | a :: l => none :: List.zipWith (fun x y => (cellSub x y).map rnd) l (a :: l)

/-- `compute_row_delta_sigle_samples_frame` in floating point, abstract_importer.py lines 82-89: the only float operation is the difference of line 84. -/
def computeRowDeltaF (rnd : ℚ → ℚ) (frame : Frame) (header shifted : List String) : Py Frame := do
  let frame1 ← match frame.cols with
    | [] => Except.error PyErr.indexError
    | (n, c) :: rest => Except.ok (⟨frame.index, (n, shiftUp (seriesDiffF rnd c)) :: rest⟩ : Frame)
  let cs ← header.mapM frame1.col
  let shiftedCols := shifted.zip (cs.map (fun c => fillInt (shiftUp c)))
  let frame2 := shiftedCols.foldl (fun f p => f.setCol p.1 p.2) frame1
  return frame2.dropLastLabel

/-- `compute_row_delta_in_all_samples_frames` in floating point, abstract_importer.py lines 107-118. -/
def computeAllDeltasF (rnd : ℚ → ℚ) (sorter : List String) (frames : List Frame) : Py Frame := do
  if sorter = [] then .error .runtimeError else
  let shifted := sorter.map (· ++ "S")
  let procs ← frames.mapM (fun f => computeRowDeltaF rnd f sorter shifted)
  let conc ← Frame.concat procs
  conc.select ("Time" :: sorter ++ shifted)

/-- `JsonImporter.import_data` in floating point, json_importer.py lines 62-71 (see `jsonImportData`). -/
def jsonImportDataF (rnd : ℚ → ℚ) (timeKey : String) (frames : List Frame) (vars : VarTable) (edges : List Edge) : Py Importer := do
  let first ← pyGet frames 0
  let sorter ← jsonSorter timeKey first
  let conc ← computeAllDeltasF rnd sorter frames
  return ⟨some conc, some sorter, some vars, some edges⟩

/-- `SampleImporter.import_data` in floating point, sample_importer.py lines 45-62 (see `sampleImportData`). -/
def sampleImportDataF (rnd : ℚ → ℚ) (frames : List Frame) (vars : Option VarTable) (edges : Option (List Edge))
    (headerColumn : Option (List Label)) : Py Importer := do
  let sorter ← match headerColumn with
    | some h => Except.ok h
    | none => do
      let first ← pyGet frames 0
      match first.names with
      | [] => Except.error PyErr.indexError
      | _ :: rest => Except.ok rest
  let conc ← computeAllDeltasF rnd sorter frames
  return ⟨some conc, some sorter, vars, edges⟩

/-- The data of the importer when time differences are rounded: nothing but the durations is a float (abstract_importer.py lines 84-86). -/
def Trajectory.roundTimes (rnd : ℚ → ℚ) (t : Trajectory) : Trajectory := { t with times := t.times.map rnd }

end PyCTBN
