import Verif.Model.ScoreEst
import Verif.Model.Importer

/-!
# The entry points `estimate_structure` with their `disable_multiprocessing` and `processes_number` arguments

`Model/ScoreEst.lean` has the bodies, given that the process pool starts.
-/

namespace PyCTBN

/-- The number of workers: structure_score_based_estimator.py lines 104-109, structure_constraint_based_estimator.py lines 222 and 236-237.  `cpu` is
`multiprocessing.cpu_count()`. -/
def poolSize (cpu : Nat) : Option ℤ → ℤ
  | none => cpu
  | some p => if p < cpu then p else cpu

/-- `concurrent.futures.ProcessPoolExecutor(max_workers=n)` raises `ValueError` unless `n` is positive.  (The limit of 61 workers on Windows is not modelled.) -/
def startPool (n : ℤ) : Py Unit := if n ≤ 0 then .error .valueError else .ok ()

/-- `StructureScoreBasedEstimator.estimate_structure`, structure_score_based_estimator.py lines 58-160: the structure is cleaned (line 90) before the pool is
started (line 118). -/
def estimateStructureCall {S : Type} [LinearOrder S] (score : Label → NetworkGraph → Py S) (removable : List (List Bool)) (e : Estimator) (a : SBArgs)
    (disable : Bool) (cpu : Nat) (processes : Option ℤ) (order : List Label) (pick drop : Label → Nat → Nat) :
    Py (Finset Edge × Option (ℚ × ℚ)) × Estimator :=
  if disable then estimateStructure score removable e a none pick drop
  else match startPool (poolSize cpu processes) with
    | .error x => (.error x, { e with struct := e.struct.cleanEdges })
    | .ok _ => estimateStructure score removable e a (some order) pick drop

/-- `StructureConstraintBasedEstimator.estimate_structure`, structure_constraint_based_estimator.py lines 205-261: likewise (lines 225 and 240). -/
def CBEnv.estimateStructureCall (E : CBEnv) (st : CBState) (e : Estimator) (disable : Bool) (cpu : Nat) (processes : Option ℤ) (order : List Label) :
    Py (Finset Edge) × Estimator :=
  if disable then E.ctpcEstimate st e none
  else match startPool (poolSize cpu processes) with
    | .error x => (.error x, { e with struct := e.struct.cleanEdges })
    | .ok _ => E.ctpcEstimate st e (some order)

end PyCTBN
