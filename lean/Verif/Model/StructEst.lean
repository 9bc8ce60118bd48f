import Verif.Model.Graph

/-!
# Model of `PyCTBN/PyCTBN/estimators/structure_estimator.py` (construction and sub-set generation)
-/

namespace PyCTBN

/-- `matrix[i][j] = False` on a two-dimensional boolean array: `IndexError` when out of range. -/
def setFalse (m : List (List Bool)) (i j : Nat) : Py (List (List Bool)) :=
  match m[i]? with
  | none => .error .indexError
  | some row => if j < row.length then .ok (m.set i (row.set j false)) else .error .indexError

/-- `matrix[i][j]`. -/
def getFlag (m : List (List Bool)) (i j : Nat) : Py Bool := do
  let row ← pyGet m i
  pyGet row j

/-- `build_removable_edges_matrix`, structure_estimator.py lines 48-63 (`None` and the empty list of known edges both skip
the loop, line 58); `n` is the sample path's `total_variables_count` (line 56). -/
def buildRemovable (s : Structure) (n : Nat) (known : List Edge) : Py (List (List Bool)) :=
  known.foldlM (fun m e => do
    let i ← s.getNodeIndx e.1
    let j ← s.getNodeIndx e.2
    setFalse m i j) (List.replicate n (List.replicate n true))

/-- `itertools.combinations(l, k)`: the `k`-element sub-lists in lexicographic order of positions. -/
def combos {α : Type} : Nat → List α → List (List α)
  | 0, _ => [[]]
  | _ + 1, [] => []
  | k + 1, x :: xs => (combos k xs).map (x :: ·) ++ combos (k + 1) xs

/-- `generate_possible_sub_sets_of_size`, structure_estimator.py lines 80-96. -/
def subSetsOfSize (u : List Label) (size : Nat) (parent : Label) : Py (List (List Label)) := do
  let rest ← pyRemove u parent
  return combos size rest

end PyCTBN
