import Verif.Model.Params

/-!
# Small accessors

Model of `Trajectory.size`, `structure_graph/trajectory.py` lines 41-42.
-/

namespace PyCTBN

/-- `Trajectory.size()`, trajectory.py lines 41-42: `self._actual_trajectory.shape[0]`. -/
def Trajectory.size (t : Trajectory) : Nat := t.rows.length

end PyCTBN
