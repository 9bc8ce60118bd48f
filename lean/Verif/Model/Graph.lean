import Verif.Model.Structure
import Mathlib.Data.List.Sort

/-!
# Model of networkx `DiGraph` (the calls used) and of `PyCTBN/PyCTBN/structure_graph/network_graph.py`
-/

namespace PyCTBN

/-- Node attributes stored by `NetworkGraph.add_nodes` (network_graph.py line 86). -/
structure NodeAttr where
  indx : Nat
  val : Nat
  pos : Nat
deriving DecidableEq, Repr

/-- `networkx.DiGraph` (2.5): nodes with attributes and edges, both in insertion order.  `none` is a node added
implicitly by `add_edge`, i.e. without the attributes of line 86. -/
structure DiGraph where
  nodes : List (Label × Option NodeAttr)
  edges : List Edge
deriving DecidableEq, Repr

namespace DiGraph

/-- `nx.DiGraph()` -/
def empty : DiGraph := ⟨[], []⟩

/-- `n in G` -/
def hasNode (g : DiGraph) (l : Label) : Bool := decide (l ∈ g.nodes.map Prod.fst)

/-- Implicit node creation by `add_edge`: keeps an existing node and its attributes. -/
def touch (g : DiGraph) (l : Label) : DiGraph :=
  if g.hasNode l then g else { g with nodes := g.nodes ++ [(l, none)] }

/-- `add_node(l, **attr)`: creates the node, or overwrites its attributes. -/
def setNode (g : DiGraph) (l : Label) (a : NodeAttr) : DiGraph :=
  if g.hasNode l then { g with nodes := g.nodes.map (fun p => if p.1 = l then (l, some a) else p) }
  else { g with nodes := g.nodes ++ [(l, some a)] }

/-- `add_edge(u, v)`: creates missing end points, ignores an existing edge. -/
def addEdge (g : DiGraph) (e : Edge) : DiGraph :=
  let g' := (g.touch e.1).touch e.2
  if e ∈ g'.edges then g' else { g' with edges := g'.edges ++ [e] }

/-- `add_edges_from` -/
def addEdgesFrom (g : DiGraph) (es : List Edge) : DiGraph := es.foldl addEdge g

/-- `remove_edges_from`: absent edges are ignored silently. -/
def removeEdgesFrom (g : DiGraph) (es : List Edge) : DiGraph :=
  { g with edges := es.foldl (fun l e => l.erase e) g.edges }

/-- `remove_node`: removes the node and its incident edges; `NetworkXError` if absent. -/
def removeNode (g : DiGraph) (x : Label) : Py DiGraph :=
  if g.hasNode x then
    .ok ⟨g.nodes.filter (fun p => p.1 != x), g.edges.filter (fun e => e.1 != x && e.2 != x)⟩
  else .error .networkXError

/-- `has_edge` -/
def hasEdge (g : DiGraph) (e : Edge) : Bool := decide (e ∈ g.edges)

/-- `list(G.predecessors(n))`, in insertion order of the edges into `n`; `NetworkXError` if `n` is absent. -/
def predecessors (g : DiGraph) (n : Label) : Py (List Label) :=
  if g.hasNode n then .ok ((g.edges.filter (fun e => e.2 == n)).map Prod.fst) else .error .networkXError

/-- `list(G.edges)`: grouped by source node in node insertion order, then by edge insertion order. -/
def edgesView (g : DiGraph) : List Edge :=
  g.nodes.flatMap (fun p => g.edges.filter (fun e => e.1 == p.1))

/-- Attribute access `G.nodes[n][...]`, `nx.get_node_attributes(G, ...)[n]`: `KeyError` when the node or the attribute is
missing. -/
def attr (g : DiGraph) (n : Label) : Py NodeAttr :=
  match g.nodes.lookup n with
  | some (some a) => .ok a
  | _ => .error .keyError

end DiGraph

/-- The tuple built by `get_ordered_by_indx_set_of_parents` (network_graph.py line 142). -/
structure ParentInfo where
  parents : List Label
  indxs : List Nat
  vals : List Nat
deriving DecidableEq, Repr

/-- `np.cumprod` with running factor. -/
def cumprodFrom (acc : Nat) : List Nat → List Nat
  | [] => []
  | x :: xs => (acc * x) :: cumprodFrom (acc * x) xs

/-- `arr.cumprod()` -/
def cumprod (l : List Nat) : List Nat := cumprodFrom 1 l

/-- `build_time_scalar_indexing_structure_for_a_node`, network_graph.py lines 153-167. -/
def buildTimeScalarIndexing (nodeStates : Nat) (parentsVals : List Nat) : List Nat :=
  cumprod (nodeStates :: parentsVals)

/-- `build_transition_scalar_indexing_structure_for_a_node`, network_graph.py lines 170-185. -/
def buildTransitionScalarIndexing (nodeStates : Nat) (parentsVals : List Nat) : List Nat :=
  cumprod (nodeStates :: nodeStates :: parentsVals)

/-- `build_time_columns_filtering_for_a_node`, network_graph.py lines 188-200. -/
def buildTimeColumnsFiltering (nodeIndx : Nat) (pIndxs : List Nat) : List Nat := nodeIndx :: pIndxs

/-- `build_transition_filtering_for_a_node`, network_graph.py lines 203-217. -/
def buildTransitionFiltering (nodeIndx : Nat) (pIndxs : List Nat) (nodesNumber : Nat) : List Nat :=
  (nodeIndx + nodesNumber) :: nodeIndx :: pIndxs

/-- Rows of `np.array(np.meshgrid(*tmp)).T.reshape(-1, n)` for `n ≥ 1` (network_graph.py line 234), `tmp` being the
ranges of `ps`.  `meshgrid` (default `indexing='xy'`) yields arrays of shape `(N₂, N₁, N₃, …)`; the transpose reverses
the axes, so in the rows the second range varies fastest, then the first, then the third, …. -/
def meshRest : List Nat → List (List Nat)
  | [] => [[]]
  | p :: ps => (meshRest ps).flatMap (fun rest => (List.range p).map (fun x => x :: rest))

@[inherit_doc meshRest]
def meshRows : List Nat → List (List Nat)
  | [] => [[]]
  | [p] => (List.range p).map (fun x => [x])
  | p₁ :: p₂ :: ps =>
    (meshRest ps).flatMap (fun rest =>
      (List.range p₁).flatMap (fun x₁ => (List.range p₂).map (fun x₂ => x₁ :: x₂ :: rest)))

/-- Exchange of columns 0 and 1 (network_graph.py lines 236-238). -/
def swapFirstTwo : List Nat → List Nat
  | a :: b :: rest => b :: a :: rest
  | l => l

/-- `build_p_comb_structure_for_a_node`, network_graph.py lines 220-241. -/
def buildPCombs (parentsValues : List Nat) : List (List Nat) :=
  if 0 < parentsValues.length then
    let comb := meshRows parentsValues
    if 1 < parentsValues.length then comb.map swapFirstTwo else comb
  else [[]]

/-- The six members filled by `fast_init` and emptied by `clear_indexing_filtering_structures`
(network_graph.py lines 61-73 and 116-124). A `fast_init` that succeeds sets them all and the
clearing empties them all, hence one record; what a raising `fast_init` leaves is modelled member by member in `Model/HalfInit.lean`. -/
structure Derived where
  /-- `_aggregated_info_about_nodes_parents` -/
  info : ParentInfo
  /-- `_time_scalar_indexing_structure` -/
  timeIdx : List Nat
  /-- `_transition_scalar_indexing_structure` -/
  transIdx : List Nat
  /-- `_time_filtering` -/
  timeFilter : List Nat
  /-- `_transition_filtering` -/
  transFilter : List Nat
  /-- `_p_combs_structure` -/
  pCombs : List (List Nat)
deriving DecidableEq, Repr

/-- `NetworkGraph`, network_graph.py lines 30-40. -/
structure NetworkGraph where
  struct : Structure
  graph : DiGraph
  derived : Option Derived
deriving DecidableEq, Repr

namespace NetworkGraph

/-- `NetworkGraph.__init__`, network_graph.py lines 30-40. -/
def new (s : Structure) : NetworkGraph := ⟨s, DiGraph.empty, none⟩

/-- `add_nodes(list_of_nodes)`, network_graph.py lines 75-87 (`zip` truncates to the shortest list). -/
def addNodes (g : NetworkGraph) (nodes : List Label) : NetworkGraph :=
  let rows := (nodes.zip (g.struct.indexes.zip g.struct.vals)).zipIdx
  { g with graph := rows.foldl (fun gr t => gr.setNode t.1.1 ⟨t.1.2.1, t.1.2.2, t.2⟩) g.graph }

/-- `has_edge`, network_graph.py lines 89-98. -/
def hasEdge (g : NetworkGraph) (e : Edge) : Bool := g.graph.hasEdge e

/-- `add_edges`, network_graph.py lines 100-106. -/
def addEdges (g : NetworkGraph) (es : List Edge) : NetworkGraph :=
  { g with graph := g.graph.addEdgesFrom es }

/-- `remove_edges`, network_graph.py lines 144-150. -/
def removeEdges (g : NetworkGraph) (es : List Edge) : NetworkGraph :=
  { g with graph := g.graph.removeEdgesFrom es }

/-- `remove_node` and `clear_indexing_filtering_structures`, network_graph.py lines 108-124. -/
def removeNode (g : NetworkGraph) (x : Label) : Py NetworkGraph := do
  let gr ← g.graph.removeNode x
  let s ← g.struct.removeNode x
  return ⟨s, gr, none⟩

/-- `get_parents_by_id`, network_graph.py lines 243-251. -/
def getParentsById (g : NetworkGraph) (n : Label) : Py (List Label) := g.graph.predecessors n

/-- `get_states_number`, network_graph.py lines 253-254. -/
def getStatesNumber (g : NetworkGraph) (n : Label) : Py Nat := do
  let a ← g.graph.attr n
  return a.val

/-- `get_node_indx`, network_graph.py lines 256-257. -/
def getNodeIndx (g : NetworkGraph) (n : Label) : Py Nat := do
  let a ← g.graph.attr n
  return a.indx

/-- `get_positional_node_indx`, network_graph.py lines 259-260. -/
def getPositionalNodeIndx (g : NetworkGraph) (n : Label) : Py Nat := do
  let a ← g.graph.attr n
  return a.pos

/-- `edges` property, network_graph.py lines 266-268. -/
def edges (g : NetworkGraph) : List Edge := g.graph.edgesView

/-- `get_ordered_by_indx_set_of_parents`, network_graph.py lines 126-142.  The dictionary `d` of line 137 maps a label to
its position (simplification: labels are distinct, so first and last position agree); a parent outside the structure's
labels is a `KeyError`; `sorted` is a stable sort on that position. -/
def getOrderedParents (g : NetworkGraph) (n : Label) : Py ParentInfo := do
  let parents ← g.getParentsById n
  let labels := g.struct.labels
  if parents.all (fun p => decide (p ∈ labels)) then
    let sorted := parents.insertionSort (fun a b => labels.idxOf a ≤ labels.idxOf b)
    let idxs ← sorted.mapM g.getNodeIndx
    let vals ← sorted.mapM g.getStatesNumber
    return ⟨sorted, idxs, vals⟩
  else .error .keyError

/-- `fast_init`, network_graph.py lines 52-73. -/
def fastInit (g : NetworkGraph) (n : Label) : Py NetworkGraph := do
  let g := g.addNodes g.struct.labels
  let g := g.addEdges g.struct.edges
  let info ← g.getOrderedParents n
  let nodeStates ← g.getStatesNumber n
  let nodeIndx ← g.getNodeIndx n
  let cols := g.struct.total
  let d : Derived :=
    { info := info
      timeIdx := buildTimeScalarIndexing nodeStates info.vals
      transIdx := buildTransitionScalarIndexing nodeStates info.vals
      timeFilter := buildTimeColumnsFiltering nodeIndx info.indxs
      transFilter := buildTransitionFiltering nodeIndx info.indxs cols
      pCombs := buildPCombs info.vals }
  return { g with derived := some d }

end NetworkGraph
end PyCTBN
