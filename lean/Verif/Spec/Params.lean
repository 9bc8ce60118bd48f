import Verif.Spec.Graph
import Verif.Model.Params

/-!
# Specification vocabulary for parameter estimation: what residence times and transition counts *are*
-/

namespace PyCTBN.Spec

/-- `u` gives every parent a state within its cardinality. -/
def InRangeAssign (cards u : List Nat) : Prop := List.Forall₂ (fun x p => x < p) u cards

/-- Position of an assignment in the enumeration in which the first parent varies fastest. -/
def rank : List Nat → List Nat → Nat
  | p :: ps, u :: us => u + p * rank ps us
  | _, _ => 0

/-- A graph a caller can hold for the structure `s`: built by the constructor and any sequence of the mutating methods
with known labels. -/
inductive Reach : Structure → NetworkGraph → Prop
  | new {s} : ClosedStructure s → Reach s (NetworkGraph.new s)
  | addEdges {s g} (es : List Edge) : Reach s g → (∀ e ∈ es, e.1 ∈ s.labels ∧ e.2 ∈ s.labels) → Reach s (g.addEdges es)
  | removeEdges {s g} (es : List Edge) : Reach s g → Reach s (g.removeEdges es)
  | fastInit {s g g'} (n : Label) : Reach s g → n ∈ s.labels → g.fastInit n = .ok g' → Reach s g'
  | removeNode {s g g'} (x : Label) : Reach s g → g.removeNode x = .ok g' → Reach g'.struct g'

/-- The parents of `n` once `fast_init` has installed the structure's own edges, in label order. -/
def parentsOf (g : NetworkGraph) (n : Label) : List Label :=
  g.struct.labels.filter (fun l => g.hasEdge (l, n) || decide ((l, n) ∈ g.struct.edges))

/-- State of variable `l` in a data row. -/
def stateOf (s : Structure) (row : List ℤ) (l : Label) : Option ℤ :=
  match s.getNodeIndx l with
  | .ok i => row[i]?
  | .error _ => none

/-- Next state of variable `l` recorded in a data row (`-1` terminates a trajectory). -/
def nextOf (s : Structure) (row : List ℤ) (l : Label) : Option ℤ :=
  match s.getNodeIndx l with
  | .ok i => row[s.total + i]?
  | .error _ => none

/-- The variable and its parents are in states `x` and `u` in the row. -/
def rowMatches (s : Structure) (child : Label) (parents : List Label) (x : Nat) (u : List Nat) (row : List ℤ) : Bool :=
  decide (stateOf s row child = some (x : ℤ)) &&
    decide (parents.map (stateOf s row) = u.map (fun v : Nat => some (v : ℤ)))

/-- Total duration of the rows in which the child is `x` and the parents are `u`. -/
def residence (s : Structure) (t : Trajectory) (child : Label) (parents : List Label) (x : Nat) (u : List Nat) : ℚ :=
  (((t.times.zip t.rows).filter (fun r => rowMatches s child parents x u r.2)).map Prod.fst).sum

/-- Number of rows in which the child goes from `x` to `x'` while the parents are `u`. -/
def transitions (s : Structure) (t : Trajectory) (child : Label) (parents : List Label) (x x' : Nat) (u : List Nat) : Nat :=
  (t.rows.filter (fun r => rowMatches s child parents x u r && decide (nextOf s r child = some (x' : ℤ)))).length

/-- Well-formed data for a structure: one duration per row, current and next state for each of the `total` variables,
states within the cardinalities, next states also possibly `-1`. -/
structure DataOK (s : Structure) (t : Trajectory) : Prop where
  origCols : t.origCols = s.total + 1
  len : t.times.length = t.rows.length
  width : ∀ r ∈ t.rows, r.length = 2 * s.total
  idx_lt : ∀ i ∈ s.indexes, i < s.total
  cur : ∀ r ∈ t.rows, ∀ l ∈ s.labels, ∀ v, s.getStatesNumber l = .ok v → ∃ x : Nat, stateOf s r l = some (x : ℤ) ∧ x < v
  nxt : ∀ r ∈ t.rows, ∀ l ∈ s.labels, ∀ v, s.getStatesNumber l = .ok v →
    nextOf s r l = some (-1) ∨ ∃ x : Nat, nextOf s r l = some (x : ℤ) ∧ x < v

/-- The cardinalities for which the indexing of the code is right: every parent has one state or as many as the child, and
the first two parents have equally many. -/
def ExactCards (c : Nat) (ps : List Nat) : Prop :=
  (∀ p ∈ ps, p = 1 ∨ p = c) ∧ ∀ p q rest, ps = p :: q :: rest → p = q

/-- Entry of a matrix. -/
def entry2 {α : Type _} (t : List (List α)) (r x : Nat) : Option α := t[r]?.bind (fun row => row[x]?)

end PyCTBN.Spec
