import Verif.Model.Structure

/-!
# Specification vocabulary for `Structure`
-/

namespace PyCTBN.Spec

/-- A structure as built from a variables table: distinct labels, one index and one cardinality per label. -/
structure WFStructure (s : Structure) : Prop where
  nodup : s.labels.Nodup
  idxLen : s.indexes.length = s.labels.length
  valLen : s.vals.length = s.labels.length

/-- Abstract edge multiset: how often each edge is present. -/
abbrev EdgeBag := Edge → Nat

/-- Edge edits only. -/
inductive EdgeOp where
  | add (e : Edge)
  | remove (e : Edge)
  | clean

/-- The public method an edge edit calls. -/
def EdgeOp.toOp : EdgeOp → Structure.Op
  | .add e => .addEdge e
  | .remove e => .removeEdge e
  | .clean => .cleanEdges

/-- Effect of an edge edit on the abstract multiset: one more, one less (if any), none at all. -/
def bagStep (m : EdgeBag) : EdgeOp → EdgeBag
  | .add e => fun f => if f = e then m f + 1 else m f
  | .remove e => fun f => if f = e then m f - 1 else m f
  | .clean => fun _ => 0

end PyCTBN.Spec
