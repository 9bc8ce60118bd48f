import Verif.Model.TrajGen
import Verif.Model.Float

/-!
# Model of `PyCTBN/PyCTBN/structure_graph/trajectory_generator.py` in floating point

As in `Model/Float.lean`, every arithmetic operation on `float64` numbers is followed by a rounding `rnd`.  The multinomial draw follows
numpy's algorithm (`random_multinomial`): a sequence of binomial draws with one trial, each with the probability of its outcome relative to what is left.
-/

namespace PyCTBN

/-- `round(t, 4)` on a `float64`, trajectory_generator.py line 130: scale, `rint`, divide. -/
def round4F (rnd : ℚ → ℚ) (t : ℚ) : ℚ := rnd ((rint (rnd (t * 10000)) : ℚ) / 10000)

/-- numpy's `random_multinomial` with one trial from outcome `j` on, where `rem` is the probability left: outcome `j` is drawn with
probability `p / rem`, so certainly not if this is 0, certainly if it is 1 (or, by rounding, more), and otherwise if `coin j` says so; the last outcome is what remains. -/
def multiDraw (rnd : ℚ → ℚ) (coin : Nat → Bool) : List ℚ → ℚ → Nat → Nat
  | [], _, j => j
  | [_], _, j => j
  | p :: q :: ps, rem, j =>
    if 1 ≤ rnd (p / rem) ∨ (0 < rnd (p / rem) ∧ coin j = true) then j
    else multiDraw rnd coin (q :: ps) (rnd (rem - p)) (j + 1)

/-- `cim_row /= sum(cim_row)` and `np.random.multinomial(1, cim_row)`, lines 124-127: `ValueError` when the sum is 0 (NaN), when a probability is
outside `[0, 1]` or when those before the last sum to more than `1.0 + 1e-12`.  (Simplification: numpy's compensated sum for that test is a plain one.) -/
def multinomialF (rnd : ℚ → ℚ) (w : List ℚ) (coin : Nat → Bool) : Py Nat :=
  let s := fsum rnd w
  let p := w.map (fun x => rnd (x / s))
  if s = 0 then .error .valueError
  else if p.any (fun x => decide (x < 0 ∨ 1 < x)) then .error .valueError
  else if rnd (1 + rnd (1 / 10 ^ 12)) < fsum rnd p.dropLast then .error .valueError
  else .ok (multiDraw rnd coin p 1 0)

/-- Source of randomness: standard exponential draws by iteration and variable, and binomial draws by iteration and outcome. -/
structure SampleDrawsF where
  exp : Nat → Nat → ℚ
  coin : Nat → Nat → Bool

namespace SampleNet

/-- The loop of lines 89-102: `t + random.exponential(scale=param)`, where numpy multiplies a standard exponential draw by the scale. -/
def fillTimersF (rnd : ℚ → ℚ) (net : SampleNet) (vals : List Nat) (t : ℚ) (e : Nat → ℚ) (timers : List (Option ℚ)) : Py (List ℚ) :=
  timers.zipIdx.mapM (fun p =>
    match p.1 with
    | some x => .ok x
    | none => do
      let v ← pyGet net.vnames p.2
      let q ← net.scaleOf vals v
      return rnd (t + rnd (q * e p.2)))

/-- One pass through the loop body, lines 87-137. -/
def stepF (rnd : ℚ → ℚ) (net : SampleNet) (tEnd : ℚ) (maxTr : ℤ) (draws : SampleDrawsF) (s : SampleState) : Py SampleStep := do
  let cur ← pyGet s.rows (s.rows.length - 1)
  let times ← net.fillTimersF rnd cur.2 s.t (draws.exp s.nTr) s.timers
  let (k, t) ← argmin times
  if stops tEnd maxTr t s.nTr then return .done (terminate s.rows)
  else
    let v ← pyGet net.vnames k
    let cim ← net.cimOf cur.2 v
    let x ← net.valueOf cur.2 v
    let row ← pyGet cim x
    let y ← multinomialF rnd (row.set x 0) (draws.coin s.nTr)
    return .next ⟨s.rows ++ [(round4F rnd t, cur.2.set k y)], net.undefine k v times, t, s.nTr + 1⟩

/-- The loop of lines 86-137, for at most `fuel` passes. -/
def runF (rnd : ℚ → ℚ) (net : SampleNet) (tEnd : ℚ) (maxTr : ℤ) (draws : SampleDrawsF) : Nat → SampleState → Py (List (ℚ × List ℤ))
  | 0, _ => .error .outOfFuel
  | fuel + 1, s => do
    match ← net.stepF rnd tEnd maxTr draws s with
    | .done rows => return rows
    | .next s' => net.runF rnd tEnd maxTr draws fuel s'

/-- `CTBN_Sample(t_end, max_tr)` in floating point, lines 67-137, for at most `fuel` passes through the loop. -/
def sampleF (rnd : ℚ → ℚ) (net : SampleNet) (tEnd : ℚ) (maxTr : ℤ) (draws : SampleDrawsF) (fuel : Nat) : Py (List (ℚ × List ℤ)) :=
  net.runF rnd tEnd maxTr draws fuel net.initState

end SampleNet
end PyCTBN
