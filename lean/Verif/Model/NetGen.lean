import Verif.Model.Params
import Verif.Model.Round

/-!
# Model of `PyCTBN/PyCTBN/structure_graph/network_generator.py`

Random numbers are inputs: `random.shuffle` is an arbitrary function on lists (assumed a permutation where needed), a
Bernoulli draw is a Boolean, a uniform draw a rational number.  The draws are indexed by the place where they are used
instead of by their position in the generator's stream.  Floats are exact rationals.
-/

namespace PyCTBN

/-- The argument `density`: a Python `int` or a `float`. -/
inductive Density where
  | int (z : ℤ)
  | float (q : ℚ)
deriving DecidableEq

/-- The value of a density. -/
def Density.val : Density → ℚ
  | .int z => z
  | .float q => q

/-- `l[:n]` for any integer `n` (a negative `n` counts from the end). -/
def pyPrefix {α : Type _} (l : List α) (n : ℤ) : List α :=
  if 0 ≤ n then l.take n.toNat else l.take (l.length - (-n).toNat)

/-- The number of edges of a fixed density, network_generator.py lines 43-47: `float.is_integer` is a `TypeError` on an `int`;
a `float` that is not an integer is rejected with `RuntimeError`. -/
def fixedCount (d : Density) (n : Nat) : Py ℤ :=
  match d with
  | .int _ => .error .typeError
  | .float q =>
    let x := q * n * ((n : ℚ) - 1)
    if x.den = 1 then .ok x.num else .error .runtimeError

/-- All ordered pairs of different labels, line 48. -/
def allPairs (labels : List Label) : List Edge :=
  labels.flatMap (fun i => (labels.filter (fun j => decide (i ≠ j))).map (fun j => (i, j)))

/-- `np.random.binomial(1, density)`: `ValueError` unless `0 ≤ density ≤ 1`; `coin` is the draw, which the densities 0 and 1
leave no choice. -/
def bernoulli (density : ℚ) (coin : Bool) : Py Bool :=
  if density < 0 ∨ 1 < density then .error .valueError
  else if density = 0 then .ok false
  else if density = 1 then .ok true
  else .ok coin

/-- The edges drawn with a probability, line 52: a draw is made for every pair, also for `i = j`; `coin a b` is the draw for the
labels in positions `a` and `b`. -/
def randomPairs (labels : List Label) (density : ℚ) (coin : Nat → Nat → Bool) : Py (List Edge) := do
  let rows ← labels.zipIdx.mapM (fun i => labels.zipIdx.mapM (fun j => do
    let b ← bernoulli density (coin i.2 j.2)
    return (if b = true ∧ i.1 ≠ j.1 then [(i.1, j.1)] else [])))
  return rows.flatten.flatten

/-- `NetworkGenerator`, lines 25-30. -/
structure NetGen where
  labels : List Label
  vals : List Nat
  graph : Option NetworkGraph
  cims : Option (List (Label × SetOfCims))
deriving DecidableEq

namespace NetGen

/-- `__init__`, lines 25-30. -/
def new (labels : List Label) (vals : List Nat) : NetGen := ⟨labels, vals, none, none⟩

/-- Lines 54-57: the graph is built from the chosen edges (`_indxs` of line 28 is `0, 1, …`). -/
def install (ng : NetGen) (edges : List Edge) : NetGen :=
  let s : Structure := ⟨ng.labels, List.range ng.labels.length, ng.vals, edges, ng.labels.length⟩
  { ng with graph := some (((NetworkGraph.new s).addNodes s.labels).addEdges s.edges) }

/-- `generate_graph(density, fixed=True)`, lines 42-50 and 54-57. -/
def generateGraphFixed (ng : NetGen) (density : Density) (shuffle : List Edge → List Edge) : Py NetGen := do
  let k ← fixedCount density ng.labels.length
  return ng.install (pyPrefix (shuffle (allPairs ng.labels)) k)

/-- `generate_graph(density)`, lines 52 and 54-57. -/
def generateGraph (ng : NetGen) (density : Density) (coin : Nat → Nat → Bool) : Py NetGen := do
  let edges ← randomPairs ng.labels density.val coin
  return ng.install edges

/-- The row `i` of a CIM, lines 107-112: `diag` and `row` are the numbers of lines 107 and 108.  (When the other draws sum to 0
and there are any, numpy yields NaN entries; here that is a `ValueError`.) -/
def genRow (diag : ℚ) (card i : Nat) (row : Nat → ℚ) : Py (List ℚ) :=
  let s := ((List.range card).map row).sum - row i
  if s = 0 ∧ 1 < card then .error .valueError
  else .ok ((List.range card).map (fun j => round4 (if j = i then -diag else row j / s * diag)))

/-- `__generate_cim`, lines 92-114: `u i` is the draw of line 107, `r i j` those of line 108. -/
def genCim (minVal maxVal : ℚ) (card : Nat) (u : Nat → ℚ) (r : Nat → Nat → ℚ) : Py (List (List ℚ)) :=
  (List.range card).mapM (fun i => genRow ((maxVal - minVal) * u i + minVal) card i (r i))

/-- The uniform draws of `generate_cims`: by position of the node, number of the CIM, row, and column. -/
structure CimDraws where
  u : Nat → Nat → Nat → ℚ
  r : Nat → Nat → Nat → Nat → ℚ

/-- The set of CIMs of the node in position `i`, lines 76-90.  (A `ConditionalIntensityMatrix(cim=...)` has no counts.) -/
def genNode (g : NetworkGraph) (minVal maxVal : ℚ) (card : Nat) (draws : CimDraws) (l : Label) (i : Nat) : Py SetOfCims := do
  let info ← g.getOrderedParents l
  let combs := buildPCombs info.vals
  let number := if info.parents.length ≠ 0 then combs.length else 1
  let cims ← (List.range number).mapM (fun k => genCim minVal maxVal card (draws.u i k) (draws.r i k))
  return ⟨l, info.vals, card, combs, false, cims.map (fun m => ⟨[], [], m⟩)⟩

/-- `generate_cims`, lines 59-90.  Without a graph nothing happens. -/
def generateCims (ng : NetGen) (minVal maxVal : ℚ) (draws : CimDraws) : Py NetGen :=
  match ng.graph with
  | none => .ok ng
  | some g => do
    let cims ← ng.labels.zipIdx.mapM (fun p => do
      let card ← pyGet ng.vals p.2
      let s ← genNode g minVal maxVal card draws p.1 p.2
      return (p.1, s))
    return { ng with cims := some cims }

/-- `dyn_str`, lines 124-126: the edge table; without a graph an `AttributeError`. -/
def dynStr (ng : NetGen) : Py (List Edge) :=
  match ng.graph with
  | none => .error .attributeError
  | some g => .ok g.edges

end NetGen

/-- The parents of a variable read from an edge table: `dyn_str.where(dyn_str["To"] == v).dropna()["From"].tolist()`,
trajectory_generator.py lines 41 and 43, json_exporter.py line 54. -/
def tableParents (table : List Edge) (v : Label) : List Label := (table.filter (fun e => decide (e.2 = v))).map Prod.fst

end PyCTBN
