import Verif.Model.NetGen
import Verif.Model.Importer

/-!
# Model of `PyCTBN/PyCTBN/structure_graph/trajectory_generator.py`

Random draws are inputs, indexed by the number `n` of the loop iteration: `draws.exp n i` is the standard exponential draw used
for the variable in position `i`, `draws.pick n` decides the multinomial draw.  (`numpy` computes `exponential(scale)` as `scale` times a
standard exponential draw.)  Times and CIM entries are exact rationals; the sampler's frame is a list of rows.
-/

namespace PyCTBN

/-- `d[k]` on a dictionary (an association list in insertion order): `KeyError` when absent. -/
def dictGet {β : Type _} (d : List (Label × β)) (k : Label) : Py β :=
  match d.find? (fun p => decide (p.1 = k)) with
  | some p => .ok p.2
  | none => .error .keyError

/-- `TrajectoryGenerator`, lines 36-65: `_vnames`, `_parents`, `_cims`. -/
structure SampleNet where
  vnames : List Label
  parents : List (Label × List Label)
  cims : List (Label × SetOfCims)

/-- Source of randomness: standard exponential draws by iteration and variable, and multinomial choices by iteration. -/
structure SampleDraws where
  exp : Nat → Nat → ℚ
  pick : Nat → Nat

namespace SampleNet

/-- `__init__(variables=, dyn_str=, dyn_cims=)`, lines 36-43 and 65: the parents of each variable in the order of the edge table. -/
def new (labels : List Label) (table : List Edge) (cims : List (Label × SetOfCims)) : SampleNet :=
  ⟨labels, labels.map (fun v => (v, tableParents table v)), cims⟩

/-- `current_values.at[p]`, lines 93, 96, 100: the value in the column named `p`; `KeyError` when there is none.
(Simplification: a variable called "Time" is not distinguished from the time column in the code; here columns are variables only.) -/
def valueOf (net : SampleNet) (vals : List Nat) (p : Label) : Py Nat :=
  match net.vnames.idxOf? p with
  | some i => (match vals[i]? with | some x => .ok x | none => .error .keyError)
  | none => .error .keyError

/-- The CIM looked up for the variable `v`, lines 91-98 (and again 112-119): with one parent the set of CIMs is indexed by the
parent's value, otherwise the first CIM selected is taken. -/
def cimOf (net : SampleNet) (vals : List Nat) (v : Label) : Py (List (List ℚ)) := do
  let ps ← dictGet net.parents v
  let u ← ps.mapM (net.valueOf vals)
  let s ← dictGet net.cims v
  let sel ← s.filterCims (ps.map (fun _ => true)) u
  let cim ← pyGet sel (if ps.length = 1 then u.headD 0 else 0)
  return cim.cim

/-- `param = -1 * cim[x][x]`, line 100, with the check `random.exponential` makes of its scale (line 102): `ValueError` when negative. -/
def scaleOf (net : SampleNet) (vals : List Nat) (v : Label) : Py ℚ := do
  let cim ← net.cimOf vals v
  let x ← net.valueOf vals v
  let row ← pyGet cim x
  let d ← pyGet row x
  if -d < 0 then .error .valueError else .ok (-d)

/-- The loop of lines 89-102: an undefined time gets a fresh event time `t + exponential(scale=param)`. -/
def fillTimers (net : SampleNet) (vals : List Nat) (t : ℚ) (e : Nat → ℚ) (timers : List (Option ℚ)) : Py (List ℚ) :=
  timers.zipIdx.mapM (fun p =>
    match p.1 with
    | some x => .ok x
    | none => do
      let v ← pyGet net.vnames p.2
      let q ← net.scaleOf vals v
      return t + q * e p.2)

end SampleNet

/-- The index and value of the first smallest of the entries `l` (numbered from `k`) and the candidate `(i, x)`. -/
def argminFrom (i : Nat) (x : ℚ) : Nat → List ℚ → Nat × ℚ
  | _, [] => (i, x)
  | k, y :: l => if y < x then argminFrom k y (k + 1) l else argminFrom i x (k + 1) l

/-- `time.argmin()` and `time[next]`, lines 104-105: the first smallest entry; `ValueError` on an empty array. -/
def argmin : List ℚ → Py (Nat × ℚ)
  | [] => .error .valueError
  | x :: l => .ok (argminFrom 0 x 1 l)

/-- `np.random.multinomial(1, w / sum(w))` with the index of the 1, lines 122-127: `ValueError` when the sum is 0 (NaN
probabilities) or a probability is outside `[0, 1]`; otherwise some index of positive probability, the choice being made by `pick`. -/
def multinomial (w : List ℚ) (pick : Nat) : Py Nat :=
  let s := w.sum
  if s = 0 then .error .valueError
  else if w.any (fun x => decide (x / s < 0 ∨ 1 < x / s)) then .error .valueError
  else
    let support := (w.zipIdx.filter (fun p => decide (0 < p.1 / s))).map Prod.snd
    pyGet support (pick % support.length)

/-- The variables of the loop in `CTBN_Sample`: the frame `sigma` (times and states; all states are non-negative until the
function returns), `time` (`none` is NaN), `t` and `n_tr`, lines 79-83. -/
structure SampleState where
  rows : List (ℚ × List Nat)
  timers : List (Option ℚ)
  t : ℚ
  nTr : Nat
deriving DecidableEq

/-- What one pass through the loop body does: return a frame or continue. -/
inductive SampleStep where
  | done (rows : List (ℚ × List ℤ))
  | next (s : SampleState)

namespace SampleNet

/-- Lines 79-83: time 0, all variables in state 0, all event times undefined. -/
def initState (net : SampleNet) : SampleState :=
  ⟨[(0, net.vnames.map (fun _ => 0))], net.vnames.map (fun _ => none), 0, 0⟩

/-- `sigma.loc[len(sigma) - 1, self._vnames] = -1`, line 108, and the returned frame. -/
def terminate (rows : List (ℚ × List Nat)) : List (ℚ × List ℤ) :=
  (rows.dropLast.map (fun r => (r.1, r.2.map (fun x : Nat => (x : ℤ))))) ++
    (rows.getLast?.toList.map (fun r => (r.1, r.2.map (fun _ => (-1 : ℤ)))))

/-- The stop condition, line 107. -/
def stops (tEnd : ℚ) (maxTr : ℤ) (t : ℚ) (nTr : Nat) : Bool :=
  (decide (maxTr ≠ -1) && decide ((nTr : ℤ) = maxTr)) || (decide (tEnd ≠ -1) && decide (tEnd ≤ t))

/-- Lines 133-137: the event times of the changed variable and of the variables that have it as a parent become undefined.
(`enumerate(self._parents)` runs over the variables in the order of `_vnames`.) -/
def undefine (net : SampleNet) (k : Nat) (v : Label) (times : List ℚ) : List (Option ℚ) :=
  times.zipIdx.map (fun p =>
    if p.2 = k ∨ (∃ q ∈ net.parents[p.2]?, v ∈ q.2) then none else some p.1)

/-- One pass through the loop body, lines 87-137. -/
def step (net : SampleNet) (tEnd : ℚ) (maxTr : ℤ) (draws : SampleDraws) (s : SampleState) : Py SampleStep := do
  let cur ← pyGet s.rows (s.rows.length - 1)
  let times ← net.fillTimers cur.2 s.t (draws.exp s.nTr) s.timers
  let (k, t) ← argmin times
  if stops tEnd maxTr t s.nTr then return .done (terminate s.rows)
  else
    let v ← pyGet net.vnames k
    let cim ← net.cimOf cur.2 v
    let x ← net.valueOf cur.2 v
    let row ← pyGet cim x
    let y ← multinomial (row.set x 0) (draws.pick s.nTr)
    return .next ⟨s.rows ++ [(round4 t, cur.2.set k y)], net.undefine k v times, t, s.nTr + 1⟩

/-- The loop of lines 86-137, for at most `fuel` passes. -/
def run (net : SampleNet) (tEnd : ℚ) (maxTr : ℤ) (draws : SampleDraws) : Nat → SampleState → Py (List (ℚ × List ℤ))
  | 0, _ => .error .outOfFuel
  | fuel + 1, s => do
    match ← net.step tEnd maxTr draws s with
    | .done rows => return rows
    | .next s' => net.run tEnd maxTr draws fuel s'

/-- `CTBN_Sample(t_end, max_tr)`, lines 67-137, for at most `fuel` passes through the loop. -/
def sample (net : SampleNet) (tEnd : ℚ) (maxTr : ℤ) (draws : SampleDraws) (fuel : Nat) : Py (List (ℚ × List ℤ)) :=
  net.run tEnd maxTr draws fuel net.initState

/-- The returned frame as pandas holds it, lines 80-81, 129 and 110: a column "Time", one column per variable, rows numbered from 0. -/
def frame (vars : List Label) (rows : List (ℚ × List ℤ)) : Frame :=
  ⟨(List.range rows.length).map (fun n : Nat => (n : ℤ)), ("Time", rows.map (fun r => some r.1)) ::
    vars.zipIdx.map (fun p => (p.1, rows.map (fun r => (r.2[p.2]?).map (fun z : ℤ => (z : ℚ)))))⟩

/-- The limits of the workers `multi_trajectory` starts, lines 163-171: one per element of `t_ends`, if given, else of `max_trs`; nothing
is started (and `None` returned) when both are missing. -/
def requests (tEnds : Option (List ℚ)) (maxTrs : Option (List ℤ)) : Option (List (ℚ × ℤ)) :=
  match tEnds, maxTrs with
  | some ts, _ => some (ts.map (fun t => (t, -1)))
  | none, some ms => some (ms.map (fun m => (-1, m)))
  | none, none => none

/-- What `worker`, lines 139-151, appends: its trajectory, or nothing when it raises. -/
def appended (r : Py (List (ℚ × List ℤ))) : Option (List (ℚ × List ℤ)) :=
  match r with
  | .ok rows => some rows
  | .error _ => none

/-- `multi_trajectory`, lines 153-179 with `worker`, lines 139-151: `draws w` is the random state of worker `w` (after a fork, a copy of the parent's), `order` the order in which
the workers append to the shared list.  A worker that raises appends nothing, and its exception is lost (line 177 only joins).
A worker that does not return within the fuel leaves `join` waiting: `blocked`. -/
def multi (net : SampleNet) (tEnds : Option (List ℚ)) (maxTrs : Option (List ℤ)) (draws : Nat → SampleDraws)
    (order : List Nat) (fuel : Nat) : Py (Option (List (List (ℚ × List ℤ)))) :=
  match requests tEnds maxTrs with
  | none => .ok none
  | some reqs => do
    let results := reqs.zipIdx.map (fun r => net.sample r.1.1 r.1.2 (draws r.2) fuel)
    if .error .outOfFuel ∈ results then .error .blocked
    else return some (order.filterMap (fun w => (results[w]?).bind appended))

end SampleNet

end PyCTBN
