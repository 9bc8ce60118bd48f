import Verif.Model.Graph
import Verif.Model.NetGen

/-!
# Object identity: which Python objects `Structure` and `NetworkGraph` share

The other models treat structures and graphs as values.  In Python they are objects that hold *references*: a `Structure` keeps
the very list of labels and the very list of edges it is given (structure.py lines 29-32), a `NetworkGraph` keeps the very
`Structure` (network_graph.py line 33), and some methods change a list in place while others install a new one.  This file is
the model with references: a reference is a number, the address of an object among those of its kind.  NumPy arrays are values here: no method of the library writes into the arrays of a structure
(`np.delete`, structure.py lines 41-42, makes new ones).
-/

namespace PyCTBN

/-- A `Structure` object, structure.py lines 29-33: two references to lists, two arrays, one number. -/
structure StructObj where
  labels : Nat
  indexes : List Nat
  vals : List Nat
  edges : Nat
  total : Nat
deriving DecidableEq, Repr

/-- A `NetworkGraph` object, network_graph.py lines 33-40: a reference to a structure, its own networkx graph, its derived
members. -/
structure GraphObj where
  struct : Nat
  graph : DiGraph
  derived : Option Derived
deriving DecidableEq, Repr

/-- All live objects, by kind; an address is a position.  Objects are never freed. -/
structure Heap where
  labelLists : List (List Label)
  edgeLists : List (List Edge)
  structs : List StructObj
  graphs : List GraphObj
deriving DecidableEq, Repr

/-- What a client program may do: make lists, edit its own lists, make structures and graphs out of what it holds, call the
public methods.  (`nodes_labels` and `edges`, structure.py lines 46-52, hand out the references themselves, so a client can name
them.) -/
inductive Cmd where
  /-- a list display `[...]` of labels -/
  | newLabels (ls : List Label)
  /-- a list display of edges -/
  | newEdges (es : List Edge)
  /-- any in-place edit of a list of labels by the client (`append`, `del`, `sort`, …) -/
  | editLabels (r : Nat) (ls : List Label)
  /-- any in-place edit of a list of edges by the client -/
  | editEdges (r : Nat) (es : List Edge)
  /-- `Structure(labels, indexes, vals, edges, total)`, structure.py lines 25-33 -/
  | newStruct (labels : Nat) (indexes vals : List Nat) (edges : Nat) (total : Nat)
  /-- `NetworkGraph(structure)`, network_graph.py lines 30-40 -/
  | newGraph (s : Nat)
  /-- a method of a structure -/
  | onStruct (s : Nat) (op : Structure.Op)
  /-- `graph.add_nodes(list)`, network_graph.py lines 75-87 -/
  | addNodes (g : Nat) (ls : List Label)
  /-- `graph.add_edges(list)`, network_graph.py lines 100-106 -/
  | addEdges (g : Nat) (es : List Edge)
  /-- `graph.remove_edges(list)`, network_graph.py lines 144-150 -/
  | removeEdges (g : Nat) (es : List Edge)
  /-- `graph.remove_node(x)`, network_graph.py lines 108-114 -/
  | removeNode (g : Nat) (x : Label)
  /-- `graph.fast_init(n)`, network_graph.py lines 52-73 -/
  | fastInit (g : Nat) (n : Label)
deriving DecidableEq, Repr

namespace Heap

/-- The structure a client sees through a reference: the members of the object with the present contents of its lists. -/
def structView (h : Heap) (s : Nat) : Option Structure :=
  match h.structs[s]? with
  | none => none
  | some o => match h.labelLists[o.labels]?, h.edgeLists[o.edges]? with
    | some ls, some es => some ⟨ls, o.indexes, o.vals, es, o.total⟩
    | _, _ => none

/-- The graph a client sees through a reference. -/
def graphView (h : Heap) (g : Nat) : Option NetworkGraph :=
  match h.graphs[g]? with
  | none => none
  | some o => match h.structView o.struct with
    | some s => some ⟨s, o.graph, o.derived⟩
    | none => none

/-- `Structure.remove_node`, structure.py lines 35-44, on the object `o` at address `s`: line 40 deletes in place from the list of
labels, lines 41-42 install new arrays, line 43 a new list of edges.  If an array is too short the call raises half-way; the
exception is returned beside the heap. -/
def structRemoveNode (h : Heap) (s : Nat) (o : StructObj) (ls : List Label) (es : List Edge) (x : Label) :
    Heap × Option PyErr :=
  match pyIndex ls x with
  | .error e => (h, some e)
  | .ok pos =>
    let h1 := { h with labelLists := h.labelLists.set o.labels (ls.eraseIdx pos) }
    match npDelete o.indexes pos with
    | .error e => (h1, some e)
    | .ok idx =>
      match npDelete o.vals pos with
      | .error e => ({ h1 with structs := h1.structs.set s { o with indexes := idx } }, some e)
      | .ok vals =>
        ({ h1 with
            edgeLists := h1.edgeLists ++ [es.filter (fun e => e.1 != x && e.2 != x)]
            structs := h1.structs.set s { o with indexes := idx, vals := vals, edges := h1.edgeLists.length } }, none)

/-- A method of the structure at address `s`: `add_edge` and `remove_edge` change the list of edges in place (structure.py lines
80 and 84), `clean_structure_edges` installs a new one (line 77). -/
def structOp (h : Heap) (s : Nat) (op : Structure.Op) : Heap × Option PyErr :=
  match h.structs[s]? with
  | none => (h, some .attributeError)
  | some o => match h.labelLists[o.labels]?, h.edgeLists[o.edges]? with
    | some ls, some es =>
      match op with
      | .removeNode x => structRemoveNode h s o ls es x
      | .addEdge e => ({ h with edgeLists := h.edgeLists.set o.edges (es ++ [e]) }, none)
      | .removeEdge e =>
        match pyRemove es e with
        | .ok es' => ({ h with edgeLists := h.edgeLists.set o.edges es' }, none)
        | .error err => (h, some err)
      | .cleanEdges =>
        ({ h with edgeLists := h.edgeLists ++ [[]]
                  structs := h.structs.set s { o with edges := h.edgeLists.length } }, none)
    | _, _ => (h, some .attributeError)

/-- A method of the graph at address `g` that does not change its structure: the value model run on what the graph sees, its own
members stored back. -/
def graphOp (h : Heap) (g : Nat) (f : NetworkGraph → Py NetworkGraph) : Heap × Option PyErr :=
  match h.graphs[g]?, h.graphView g with
  | some o, some v =>
    match f v with
    | .ok v' => ({ h with graphs := h.graphs.set g { o with graph := v'.graph, derived := v'.derived } }, none)
    | .error e => (h, some e)
  | _, _ => (h, some .attributeError)

/-- `NetworkGraph.remove_node`, network_graph.py lines 108-114: first the networkx graph, then the (possibly shared) structure,
then the derived members. -/
def graphRemoveNode (h : Heap) (g : Nat) (x : Label) : Heap × Option PyErr :=
  match h.graphs[g]? with
  | none => (h, some .attributeError)
  | some o =>
    match o.graph.removeNode x with
    | .error e => (h, some e)
    | .ok gr =>
      let h1 := { h with graphs := h.graphs.set g { o with graph := gr } }
      match h1.structOp o.struct (.removeNode x) with
      | (h2, some e) => (h2, some e)
      | (h2, none) => ({ h2 with graphs := h2.graphs.set g { o with graph := gr, derived := none } }, none)

/-- One command.  A command that raises leaves the objects as they were at the point of the exception; the program goes on (as
under `try`).  `fast_init` modifies the networkx graph before it can raise (network_graph.py lines 59-60), which is why its
failure is spelled out.  (Simplification: a `fast_init` that raises after line 61 also leaves the new parent information set; here
the derived members stay as they were; see
`Model/HalfInit.lean` for that state.) -/
def step (h : Heap) : Cmd → Heap × Option PyErr
  | .newLabels ls => ({ h with labelLists := h.labelLists ++ [ls] }, none)
  | .newEdges es => ({ h with edgeLists := h.edgeLists ++ [es] }, none)
  | .editLabels r ls => ({ h with labelLists := h.labelLists.set r ls }, none)
  | .editEdges r es => ({ h with edgeLists := h.edgeLists.set r es }, none)
  | .newStruct l idx vals e n =>
    if l < h.labelLists.length ∧ e < h.edgeLists.length then
      ({ h with structs := h.structs ++ [⟨l, idx, vals, e, n⟩] }, none)
    else (h, some .attributeError)
  | .newGraph s =>
    if s < h.structs.length then ({ h with graphs := h.graphs ++ [⟨s, DiGraph.empty, none⟩] }, none)
    else (h, some .attributeError)
  | .onStruct s op => h.structOp s op
  | .addNodes g ls => h.graphOp g (fun v => .ok (v.addNodes ls))
  | .addEdges g es => h.graphOp g (fun v => .ok (v.addEdges es))
  | .removeEdges g es => h.graphOp g (fun v => .ok (v.removeEdges es))
  | .removeNode g x => h.graphRemoveNode g x
  | .fastInit g n =>
    match h.graphOp g (fun v => v.fastInit n) with
    | (h', none) => (h', none)
    | (_, some e) =>
      ((h.graphOp g (fun v => .ok ((v.addNodes v.struct.labels).addEdges v.struct.edges))).1, some e)

/-- A whole program. -/
def run (h : Heap) (p : List Cmd) : Heap := p.foldl (fun h c => (h.step c).1) h

end Heap

/-- `generator.graph.remove_node(x)`: `generate_graph` built the structure from the generator's own list of labels
(network_generator.py line 54, `self._labels`), so structure.py line 40 deletes the label there as well; the generator's
cardinalities are another object (structure.py line 42 makes a new array for the structure).  Without a graph an
`AttributeError`. -/
def NetGen.graphRemoveNode (ng : NetGen) (x : Label) : Py NetGen :=
  match ng.graph with
  | none => .error .attributeError
  | some g => do
    let g' ← g.removeNode x
    return { ng with labels := g'.struct.labels, graph := some g' }

end PyCTBN
