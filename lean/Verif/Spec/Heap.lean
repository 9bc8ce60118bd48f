import Verif.Model.Heap
import Verif.Spec.Structure

/-!
# Specification vocabulary for shared objects
-/

namespace PyCTBN.Spec

/-- No dangling reference. -/
structure HeapOk (h : Heap) : Prop where
  lists : ∀ o ∈ h.structs, o.labels < h.labelLists.length ∧ o.edges < h.edgeLists.length
  structs : ∀ o ∈ h.graphs, o.struct < h.structs.length

/-- No other structure was built from the list of labels or the list of edges of the structure `s`. -/
def OwnLists (h : Heap) (s : Nat) : Prop :=
  ∀ o, h.structs[s]? = some o → ∀ t o', t ≠ s → h.structs[t]? = some o' → o'.labels ≠ o.labels ∧ o'.edges ≠ o.edges

/-- The command edits one of the lists of `s` behind its back, or builds another structure from it. -/
def Tampers (h : Heap) (s : Nat) : Cmd → Prop
  | .editLabels r _ => ∃ o, h.structs[s]? = some o ∧ o.labels = r
  | .editEdges r _ => ∃ o, h.structs[s]? = some o ∧ o.edges = r
  | .newStruct l _ _ e _ => ∃ o, h.structs[s]? = some o ∧ (o.labels = l ∨ o.edges = e)
  | _ => False

/-- The method of the structure `s` a command amounts to: one called on `s` itself, or `remove_node` called on a graph over `s`
that has the node. -/
def editOf (h : Heap) (s : Nat) : Cmd → Option Structure.Op
  | .onStruct t op => if t = s then some op else none
  | .removeNode g x =>
    match h.graphs[g]? with
    | some o => if o.struct = s ∧ o.graph.hasNode x = true then some (.removeNode x) else none
    | none => none
  | _ => none

/-- No command of the program tampers with `s`. -/
def Untampered (s : Nat) : Heap → List Cmd → Prop
  | _, [] => True
  | h, c :: p => ¬ Tampers h s c ∧ Untampered s (h.step c).1 p

/-- The edits a program makes to the structure `s`, in order. -/
def editsOf (s : Nat) : Heap → List Cmd → List Structure.Op
  | _, [] => []
  | h, c :: p => (editOf h s c).toList ++ editsOf s (h.step c).1 p

/-- A method call on a graph as a value: what happens to it, also when the call raises.  (`remove_node` of a node the structure does
not have, and a failing `fast_init`, have changed the networkx graph when they raise.) -/
def graphCall (v : NetworkGraph) : Cmd → NetworkGraph
  | .addNodes _ ls => v.addNodes ls
  | .addEdges _ es => v.addEdges es
  | .removeEdges _ es => v.removeEdges es
  | .removeNode _ x =>
    match v.removeNode x with
    | .ok v' => v'
    | .error _ => match v.graph.removeNode x with
      | .ok gr => { v with graph := gr }
      | .error _ => v
  | .fastInit _ n =>
    match v.fastInit n with
    | .ok v' => v'
    | .error _ => (v.addNodes v.struct.labels).addEdges v.struct.edges
  | _ => v

/-- The command is a method call on the graph `g`. -/
def callsGraph (g : Nat) : Cmd → Bool
  | .addNodes g' _ => g' == g
  | .addEdges g' _ => g' == g
  | .removeEdges g' _ => g' == g
  | .removeNode g' _ => g' == g
  | .fastInit g' _ => g' == g
  | _ => false

/-- No command tampers with the structure `s`, and none edits it, except through the graph `g`. -/
def EditedOnlyThrough (g s : Nat) : Heap → List Cmd → Prop
  | _, [] => True
  | h, c :: p => ¬ Tampers h s c ∧ (editOf h s c ≠ none → callsGraph g c = true) ∧ EditedOnlyThrough g s (h.step c).1 p

end PyCTBN.Spec
