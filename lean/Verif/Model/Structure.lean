import Verif.Model.Py

/-!
# Model of `PyCTBN/PyCTBN/structure_graph/structure.py`
-/

namespace PyCTBN

/-- `Structure.__init__`, structure.py lines 25-33: the five members. Indexes and cardinalities are naturals. -/
structure Structure where
  /-- `_nodes_labels_list` -/
  labels : List Label
  /-- `_nodes_indexes_arr` -/
  indexes : List Nat
  /-- `_nodes_vals_arr` -/
  vals : List Nat
  /-- `_edges_list` -/
  edges : List Edge
  /-- `_total_variables_number` -/
  total : Nat
deriving DecidableEq, Repr

namespace Structure

/-- `remove_node`, structure.py lines 35-44. The only exception on well-formed structures is the `ValueError` of
`list.index` (line 39), raised before anything is modified. -/
def removeNode (s : Structure) (x : Label) : Py Structure := do
  let pos ← pyIndex s.labels x
  let idx ← npDelete s.indexes pos
  let vals ← npDelete s.vals pos
  return { s with
    labels := s.labels.eraseIdx pos
    indexes := idx
    vals := vals
    edges := s.edges.filter (fun e => e.1 != x && e.2 != x) }

/-- `get_node_id`, structure.py lines 66-74. -/
def getNodeId (s : Structure) (i : Nat) : Py Label := pyGet s.labels i

/-- `clean_structure_edges`, structure.py lines 76-77. -/
def cleanEdges (s : Structure) : Structure := { s with edges := [] }

/-- `add_edge`, structure.py lines 79-80. -/
def addEdge (s : Structure) (e : Edge) : Structure := { s with edges := s.edges ++ [e] }

/-- `remove_edge`, structure.py lines 83-84. -/
def removeEdge (s : Structure) (e : Edge) : Py Structure := do
  let es ← pyRemove s.edges e
  return { s with edges := es }

/-- `contains_edge`, structure.py lines 86-87. -/
def containsEdge (s : Structure) (e : Edge) : Bool := decide (e ∈ s.edges)

/-- `get_node_indx`, structure.py lines 89-98. -/
def getNodeIndx (s : Structure) (l : Label) : Py Nat := do
  let pos ← pyIndex s.labels l
  pyGet s.indexes pos

/-- `get_positional_node_indx`, structure.py lines 100-101. -/
def getPositionalNodeIndx (s : Structure) (l : Label) : Py Nat := pyIndex s.labels l

/-- `get_states_number`, structure.py lines 103-112. -/
def getStatesNumber (s : Structure) (l : Label) : Py Nat := do
  let pos ← pyIndex s.labels l
  pyGet s.vals pos

/-- `__eq__`, structure.py lines 118-126: labels compared as Python `set`s, arrays and edges as sequences.
(The comparison with a non-`Structure`, line 126, is outside the typed model.) -/
def pyEq (a b : Structure) : Bool :=
  (a.labels.all (fun l => decide (l ∈ b.labels)) && b.labels.all (fun l => decide (l ∈ a.labels)))
    && decide (a.vals = b.vals) && decide (a.indexes = b.indexes) && decide (a.edges = b.edges)

/-- Edits a caller can make to a structure through its public methods. -/
inductive Op where
  | removeNode (x : Label)
  | addEdge (e : Edge)
  | removeEdge (e : Edge)
  | cleanEdges
deriving DecidableEq, Repr

/-- One edit; a raising call (structure.py lines 39 and 84) leaves the object as it was. -/
def apply (s : Structure) : Op → Structure
  | .removeNode x => match s.removeNode x with | .ok s' => s' | .error _ => s
  | .addEdge e => s.addEdge e
  | .removeEdge e => match s.removeEdge e with | .ok s' => s' | .error _ => s
  | .cleanEdges => s.cleanEdges

end Structure
end PyCTBN
