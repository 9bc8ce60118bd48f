import Verif.Spec.Graph

/-!
# Model of `NetworkGraph.fast_init` statement by statement, with the state an exception leaves
-/

namespace PyCTBN
open Spec

/-- The members of a `NetworkGraph` object one by one, network_graph.py lines 30-40 (`Derived` of `Model/Graph.lean` has the last six in one record, which a
`fast_init` that raises would tear apart). -/
structure GraphMembers where
  struct : Structure
  graph : DiGraph
  /-- `_aggregated_info_about_nodes_parents` -/
  info : Option ParentInfo
  /-- `_time_scalar_indexing_structure` -/
  timeIdx : Option (List Nat)
  /-- `_transition_scalar_indexing_structure` -/
  transIdx : Option (List Nat)
  /-- `_time_filtering` -/
  timeFilter : Option (List Nat)
  /-- `_transition_filtering` -/
  transFilter : Option (List Nat)
  /-- `_p_combs_structure` -/
  pCombs : Option (List (List Nat))
deriving DecidableEq, Repr

namespace GraphMembers

/-- `NetworkGraph.__init__`, network_graph.py lines 30-40. -/
def new (s : Structure) : GraphMembers := ⟨s, DiGraph.empty, none, none, none, none, none, none⟩

/-- The structure and the networkx graph, which are all the called methods look at. -/
def base (o : GraphMembers) : NetworkGraph := ⟨o.struct, o.graph, none⟩

/-- `fast_init`, network_graph.py lines 52-73: the members after the call and the exception it raised, if any.  Lines 59-60 change the graph, line 61 sets the parent
information, lines 64-65 can raise, lines 67-73 set the other members. -/
def fastInit (o : GraphMembers) (n : Label) : GraphMembers × Option PyErr :=
  let g := (o.base.addNodes o.struct.labels).addEdges o.struct.edges
  let o1 := { o with graph := g.graph }
  match g.getOrderedParents n with
  | .error e => (o1, some e)
  | .ok info =>
    let o2 := { o1 with info := some info }
    match g.getStatesNumber n with
    | .error e => (o2, some e)
    | .ok nodeStates =>
      match g.getNodeIndx n with
      | .error e => (o2, some e)
      | .ok nodeIndx =>
        ({ o2 with
            timeIdx := some (buildTimeScalarIndexing nodeStates info.vals)
            transIdx := some (buildTransitionScalarIndexing nodeStates info.vals)
            timeFilter := some (buildTimeColumnsFiltering nodeIndx info.indxs)
            transFilter := some (buildTransitionFiltering nodeIndx info.indxs o.struct.total)
            pCombs := some (buildPCombs info.vals) }, none)

/-- One call of a client that catches exceptions: `add_edges`, `remove_edges` (network_graph.py lines 100-106 and 144-150) or `fast_init`. -/
def call (o : GraphMembers) : GraphOp → GraphMembers
  | .addEdges es => { o with graph := (o.base.addEdges es).graph }
  | .removeEdges es => { o with graph := (o.base.removeEdges es).graph }
  | .fastInit n => (o.fastInit n).1

/-- A history of calls. -/
def calls (o : GraphMembers) (ops : List GraphOp) : GraphMembers := ops.foldl call o

end GraphMembers
end PyCTBN
