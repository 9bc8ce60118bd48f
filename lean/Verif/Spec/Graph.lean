import Verif.Spec.Structure
import Verif.Model.Graph

/-!
# Specification vocabulary for `NetworkGraph`
-/

namespace PyCTBN.Spec

/-- A well-formed structure all of whose edges join known labels. -/
structure ClosedStructure (s : Structure) : Prop extends WFStructure s where
  closed : ∀ e ∈ s.edges, e.1 ∈ s.labels ∧ e.2 ∈ s.labels

/-- What a caller can do to a graph between two queries. -/
inductive GraphOp where
  | addEdges (es : List Edge)
  | removeEdges (es : List Edge)
  | fastInit (n : Label)

/-- Running an operation on the model; a raising `fast_init` is not followed further. -/
def GraphOp.run (g : NetworkGraph) : GraphOp → Py NetworkGraph
  | .addEdges es => .ok (g.addEdges es)
  | .removeEdges es => .ok (g.removeEdges es)
  | .fastInit n => g.fastInit n

/-- A whole history. -/
def runGraphOps (g : NetworkGraph) : List GraphOp → Py NetworkGraph
  | [] => .ok g
  | op :: ops => do
    let g' ← op.run g
    runGraphOps g' ops

/-- The abstract graph is a predicate on edges ("is this edge present?"). `fast_init` installs the structure's edges. -/
def absStep (s : Structure) (present : Edge → Prop) : GraphOp → (Edge → Prop)
  | .addEdges es => fun e => present e ∨ e ∈ es
  | .removeEdges es => fun e => present e ∧ e ∉ es
  | .fastInit _ => fun e => present e ∨ e ∈ s.edges

/-- Labels mentioned by a history. -/
def GraphOp.labelsIn (labels : List Label) : GraphOp → Prop
  | .addEdges es => ∀ e ∈ es, e.1 ∈ labels ∧ e.2 ∈ labels
  | .removeEdges _ => True
  | .fastInit n => n ∈ labels

end PyCTBN.Spec
