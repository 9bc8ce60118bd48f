import Verif.Spec.Search
import Verif.Spec.FamScore
import Verif.Model.ScoreEst

/-!
# Specification vocabulary for score-based structure estimation
-/

namespace PyCTBN.Spec

/-- The observed statistics of node `n` while its parents `ps` are in the states `u`. -/
def observed (s : Structure) (t : Trajectory) (n : Label) (ps : List Label) (c : Nat) (u : List Nat) : Stats where
  time x := residence s t n ps x u
  count x y := if x = y then ∑ z ∈ (Finset.range c).erase x, transitions s t n ps x z u else transitions s t n ps x y u

/-- The score the estimator gives to a new graph in which the parents of `n` are `K` (added in the order of the labels). -/
noncomputable def scoreOfParents (s : Structure) (t : Trajectory) (tau alpha : ℝ) (n : Label) (K : Finset Label) : Py ℝ := do
  let g ← ((NetworkGraph.new s).addEdges ((s.labels.filter (fun l => decide (l ∈ K))).map (fun l => (l, n)))).fastInit n
  famScoreOn t tau alpha n g

/-- All variables have `c` states, durations are not negative and the data are well formed. -/
structure UniformData (s : Structure) (t : Trajectory) (c : Nat) : Prop where
  wf : WFStructure s
  data : DataOK s t
  cards : ∀ v ∈ s.vals, v = c
  times : ∀ d ∈ t.times, 0 ≤ d

end PyCTBN.Spec
