import Verif.Model.Graph
import Verif.Model.StructEst
import Mathlib.Order.Defs.LinearOrder

/-!
# Model of the score-based searches

`PyCTBN/PyCTBN/optimizers/hill_climbing_search.py` and `PyCTBN/PyCTBN/optimizers/tabu_search.py`.

Scores live in an arbitrary linear order `S`.  Random choices are oracles: `pick i` and `drop i` are the numbers drawn in
iteration `i` (every iteration draws at most once of each kind); all theorems are for all oracles.
-/

namespace PyCTBN

/-- `random.choice(l)` with the oracle's number: `IndexError` on an empty list.  Every element is obtained for some number. -/
def choice (l : List Label) (r : Nat) : Py Label :=
  if l = [] then .error .indexError else pyGet l (r % l.length)

/-- What the optimizers read from the estimator: the sample path's structure, the matrix of removable edges, and the score of
a node computed from a graph on which `fast_init` has just been called. -/
structure SearchEnv (S : Type) where
  struct : Structure
  removable : List (List Bool)
  score : Label → NetworkGraph → Py S

namespace SearchEnv
variable {S : Type} [LinearOrder S]

/-- `get_score_from_graph`, structure_score_based_estimator.py lines 214-245: `fast_init` (which changes the graph), then the
score. -/
def scoreGraph (E : SearchEnv S) (n : Label) (g : NetworkGraph) : Py (S × NetworkGraph) := do
  let g ← g.fastInit n
  let s ← E.score n g
  return (s, g)

/-- The prior parents, hill_climbing_search.py lines 70-79 and tabu_search.py lines 79-88 (the same text). -/
def priorParents (E : SearchEnv S) (j : Nat) : Py (List Label) :=
  (List.range E.removable.length).foldlM (fun acc i => do
    if ← getFlag E.removable i j then return acc
    else do
      let p ← E.struct.getNodeId i
      return acc ++ [p]) []

/-- The graph before the search: hill_climbing_search.py lines 67 and 82, tabu_search.py lines 76 and 91. -/
def initGraph (E : SearchEnv S) (n : Label) (prior : List Label) : NetworkGraph :=
  prior.foldl (fun g p => g.addEdges [(p, n)]) (NetworkGraph.new E.struct)

/-- `other_nodes`, hill_climbing_search.py lines 87-90 (a list) and tabu_search.py lines 96-99 (a set). -/
def otherNodes (E : SearchEnv S) (n : Label) (prior : List Label) : List Label :=
  E.struct.labels.filter (fun l => decide (l ≠ n ∧ l ∉ prior))

/-- The change of the graph in one iteration: hill_climbing_search.py lines 99-113 and tabu_search.py lines 132-145.
Returns the graph, `added` and the parent in `parent_removed`. -/
def propose (n : Label) (maxParents : Option ℤ) (g : NetworkGraph) (p : Label) (r : Nat) :
    Py (NetworkGraph × Bool × Option Label) :=
  if g.hasEdge (p, n) then .ok (g.removeEdges [(p, n)], false, none)
  else do
    let (g, removed) ← match maxParents with
      | none => Except.ok (g, none)
      | some k => do
        let parents ← g.getParentsById n
        if k ≤ parents.length then do
          let q ← choice parents r
          Except.ok (g.removeEdges [(q, n)], some q)
        else Except.ok (g, none)
    return (g.addEdges [(p, n)], true, removed)

/-- "undo the last update": hill_climbing_search.py lines 123-130 and tabu_search.py lines 157-164. -/
def undo (n : Label) (g : NetworkGraph) (p : Label) (added : Bool) (removed : Option Label) : NetworkGraph :=
  if added then
    let g := g.removeEdges [(p, n)]
    match removed with
    | some q => g.addEdges [(q, n)]
    | none => g
  else g.addEdges [(p, n)]

/-- Propose, score, keep or undo: hill_climbing_search.py lines 98-130 and tabu_search.py lines 131-164.  Returns the
graph, whether the score improved, and the score. -/
def tryMove (E : SearchEnv S) (n : Label) (maxParents : Option ℤ) (g : NetworkGraph) (best : S) (p : Label) (r : Nat) :
    Py (NetworkGraph × Bool × S) := do
  let (g, added, removed) ← propose n maxParents g p r
  let (s, g) ← E.scoreGraph n g
  if best < s then return (g, true, s)
  else return (undo n g p added removed, false, s)

/-- `patience is not None and patince_count > patience`: hill_climbing_search.py line 134, tabu_search.py line 187. -/
def outOfPatience (patience : Option ℤ) (count : Nat) : Bool :=
  match patience with
  | none => false
  | some k => decide (k < count)

/-- The loop of `HillClimbing.optimize_structure`, hill_climbing_search.py lines 94-135, `k` iterations before the limit, in
iteration `i`.  The last argument and the second component of the result are ghosts: the scores evaluated so far. -/
def hillLoop (E : SearchEnv S) (n : Label) (others : List Label) (maxParents patience : Option ℤ) (pick drop : Nat → Nat) :
    Nat → Nat → NetworkGraph → S → Nat → List S → Py (NetworkGraph × List S)
  | 0, _, g, _, _, log => .ok (g, log)
  | k + 1, i, g, best, count, log => do
    let p ← choice others (pick i)
    let (g, improved, s) ← E.tryMove n maxParents g best p (drop i)
    let best' := if improved then s else best
    let count' := if improved then 0 else count + 1
    if outOfPatience patience count' then return (g, log ++ [s])
    else hillLoop E n others maxParents patience pick drop k (i + 1) g best' count' (log ++ [s])

/-- `HillClimbing.optimize_structure`, hill_climbing_search.py lines 58-138; the second component of the result is a ghost,
the list of all scores evaluated, starting structure first.  (`iterations_number` is a natural number: `range` of a negative
number is empty.) -/
def hill (E : SearchEnv S) (n : Label) (maxParents : Option ℤ) (iterations : Nat) (patience : Option ℤ)
    (pick drop : Nat → Nat) : Py (List Edge × List S) := do
  let j ← E.struct.getNodeIndx n
  let prior ← E.priorParents j
  let (s, g) ← E.scoreGraph n (E.initGraph n prior)
  let (g, log) ← E.hillLoop n (E.otherNodes n prior) maxParents patience pick drop iterations 0 g s 0 [s]
  return (g.edges, log)

/-- `queue.Queue.get()`: waits forever when the queue is empty. -/
def queueGet (q : List Label) : Py (Label × List Label) :=
  match q with
  | [] => .error .blocked
  | x :: xs => .ok (x, xs)

/-- `set.remove(x)`: `KeyError` if absent. -/
def setRemove (s : List Label) (x : Label) : Py (List Label) :=
  if x ∈ s then .ok (s.filter (fun y => decide (y ≠ x))) else .error .keyError

/-- `tabu_queue.get()` followed by `tabu_set.remove(...)`. -/
def tabuPop (q t : List Label) : Py (Label × List Label × List Label) := do
  let (x, q) ← queueGet q
  let t ← setRemove t x
  return (x, q, t)

/-- The candidate of this iteration, tabu_search.py lines 120-127. -/
def tabuPick (others q t : List Label) (r : Nat) : Py (Label × List Label × List Label) :=
  let possible := others.filter (fun l => decide (l ∉ t))
  if 0 < possible.length then do
    let p ← choice possible r
    return (p, q, t)
  else tabuPop q t

/-- A full tabu list drops its oldest entry: tabu_search.py lines 169-171. -/
def tabuRoom (length : ℤ) (q t : List Label) : Py (List Label × List Label) :=
  if length ≤ q.length then do
    let (_, q, t) ← tabuPop q t
    return (q, t)
  else return (q, t)

/-- The bookkeeping after the evaluation, tabu_search.py lines 169-185.  Returns queue, set and `tabu_count`. -/
def tabuUpdate (length duration : ℤ) (q t : List Label) (p : Label) (count : Nat) : Py (List Label × List Label × Nat) := do
  let (q, t) ← tabuRoom length q t
  let q := q ++ [p]
  let t := if p ∈ t then t else t ++ [p]
  let count := count + 1
  if duration = 0 then .error .zeroDivisionError
  else if (count : ℤ) % duration = 0 then
    if 0 < q.length then do
      let (_, q, t) ← tabuPop q t
      Except.ok (q, t, 0)
    else Except.ok (q, t, 0)
  else Except.ok (q, t, count)

/-- One entry of the ghost log of the tabu search: the candidate, the tabu queue when it was chosen, and its score. -/
structure TabuStep (S : Type) where
  cand : Label
  queue : List Label
  score : S

/-- The loop of `TabuSearch.optimize_structure`, tabu_search.py lines 113-188; ghosts as in `hillLoop`. -/
def tabuLoop (E : SearchEnv S) (n : Label) (others : List Label) (maxParents patience : Option ℤ) (length duration : ℤ)
    (pick drop : Nat → Nat) :
    Nat → Nat → NetworkGraph → S → Nat → List Label → List Label → Nat → List (TabuStep S) → Py (NetworkGraph × List (TabuStep S))
  | 0, _, g, _, _, _, _, _, log => .ok (g, log)
  | k + 1, i, g, best, count, q, t, tcount, log => do
    let (p, q1, t1) ← tabuPick others q t (pick i)
    let (g, improved, s) ← E.tryMove n maxParents g best p (drop i)
    let best' := if improved then s else best
    let count' := if improved then 0 else count + 1
    let (q2, t2, tcount') ← tabuUpdate length duration q1 t1 p tcount
    let log' := log ++ [⟨p, q, s⟩]
    if outOfPatience patience count' then return (g, log')
    else tabuLoop E n others maxParents patience length duration pick drop k (i + 1) g best' count' q2 t2 tcount' log'

/-- `TabuSearch.optimize_structure`, tabu_search.py lines 66-191: the edges, and as ghosts the score of the starting
structure and the log.  (Simplifications: an unset `tabu_length` or `tabu_rules_duration` is replaced by the number of
candidates, lines 105-110, without storing it in the object, which is not used again; a `set` is a list whose order the oracle
`pick` makes irrelevant.) -/
def tabu (E : SearchEnv S) (n : Label) (maxParents : Option ℤ) (iterations : Nat) (patience tabuLength tabuDuration : Option ℤ)
    (pick drop : Nat → Nat) : Py (List Edge × S × List (TabuStep S)) := do
  let j ← E.struct.getNodeIndx n
  let prior ← E.priorParents j
  let others := E.otherNodes n prior
  let (s, g) ← E.scoreGraph n (E.initGraph n prior)
  let length := tabuLength.getD others.length
  let duration := tabuDuration.getD others.length
  let (g, log) ← E.tabuLoop n others maxParents patience length duration pick drop iterations 0 g s 0 [] [] 0 []
  return (g.edges, s, log)

end SearchEnv
end PyCTBN
