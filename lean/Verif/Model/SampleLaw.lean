import Verif.Model.TrajGen
import Mathlib.Data.Real.Archimedean

/-!
# Model of `PyCTBN/PyCTBN/structure_graph/trajectory_generator.py` with real-valued clocks

The loop of `CTBN_Sample` as in `Verif.Model.TrajGen`, with event times and exponential draws in the real numbers, so that the draws can be
given their probability law (an exponential law has no mass on any countable set).  The multinomial choice is a function of the weights.
`movesR` leaves the stop condition out: it gives the sequence of moves the loop makes as long as it goes on; `sampleR` is the function with `max_tr` given.
The stamps are rounded to four decimals, so that the rows returned are rational.
-/

namespace PyCTBN

noncomputable section

/-- The random draws of one pass: the standard exponential draws by position of the variable, and the multinomial choice
(`numpy` draws `exponential(scale)` as `scale` times a standard exponential draw, line 102; `multinomial` of line 125). -/
structure PassDraws where
  exp : Nat → ℝ
  pick : List ℚ → Nat

/-- The variables of the loop: the current row of the frame, `time` (`none` is NaN) and `t`, lines 79-83. -/
structure ClockState where
  vals : List Nat
  timers : List (Option ℝ)
  t : ℝ

/-- What one pass of the loop does: the position of the variable that changes, its new state, and the time since the previous change. -/
structure Move where
  var : Nat
  target : Nat
  hold : ℝ

/-- `argminFrom` with real entries. -/
def argminFromR (i : Nat) (x : ℝ) : Nat → List ℝ → Nat × ℝ
  | _, [] => (i, x)
  | k, y :: l => if y < x then argminFromR k y (k + 1) l else argminFromR i x (k + 1) l

/-- `time.argmin()` and `time[next]`, lines 104-105. -/
def argminR : List ℝ → Py (Nat × ℝ)
  | [] => .error .valueError
  | x :: l => .ok (argminFromR 0 x 1 l)

/-- `np.random.multinomial(1, w / sum(w))`, lines 122-127: the same errors as `multinomial`, the choice made by `pick`. -/
def multinomialR (w : List ℚ) (pick : List ℚ → Nat) : Py Nat :=
  if w.sum = 0 then .error .valueError
  else if w.any (fun x => decide (x / w.sum < 0 ∨ 1 < x / w.sum)) then .error .valueError
  else .ok (pick w)

namespace SampleNet

/-- The loop of lines 89-102: an undefined time gets a fresh event time `t + exponential(scale=param)`. -/
def fillTimersR (net : SampleNet) (vals : List Nat) (t : ℝ) (e : Nat → ℝ) (timers : List (Option ℝ)) : Py (List ℝ) :=
  timers.zipIdx.mapM (fun p =>
    match p.1 with
    | some x => .ok x
    | none => do
      let v ← pyGet net.vnames p.2
      let q ← net.scaleOf vals v
      return t + (q : ℝ) * e p.2)

/-- Lines 133-137: the event times of the changed variable and of the variables that have it as a parent become undefined. -/
def undefineR (net : SampleNet) (k : Nat) (v : Label) (times : List ℝ) : List (Option ℝ) :=
  times.zipIdx.map (fun p =>
    if p.2 = k ∨ (∃ q ∈ net.parents[p.2]?, v ∈ q.2) then none else some p.1)

/-- One pass through the loop body that does not stop, lines 87-105 and 112-137. -/
def passR (net : SampleNet) (d : PassDraws) (s : ClockState) : Py (Move × ClockState) := do
  let times ← net.fillTimersR s.vals s.t d.exp s.timers
  let (k, t) ← argminR times
  let v ← pyGet net.vnames k
  let cim ← net.cimOf s.vals v
  let x ← net.valueOf s.vals v
  let row ← pyGet cim x
  let y ← multinomialR (row.set x 0) d.pick
  return (⟨k, y, t - s.t⟩, ⟨s.vals.set k y, net.undefineR k v times, t⟩)

/-- The moves of the first `n` passes of the loop of lines 86-137, from a state `s`, with the draws `d 0`, `d 1`, … . -/
def movesR (net : SampleNet) : Nat → (Nat → PassDraws) → ClockState → Py (List Move)
  | 0, _, _ => return []
  | n + 1, d, s => do
    let (m, s') ← net.passR (d 0) s
    let ms ← net.movesR n (fun j => d (j + 1)) s'
    return m :: ms

/-- Lines 79-83: time 0, all variables in state 0, all event times undefined. -/
def initClock (net : SampleNet) : ClockState := ⟨net.vnames.map (fun _ => 0), net.vnames.map (fun _ => none), 0⟩

/-- `np.rint` on a real number: the nearest integer, the even one of two equally near. -/
def _root_.PyCTBN.rintR (x : ℝ) : ℤ :=
  if x - ⌊x⌋ < 1 / 2 then ⌊x⌋
  else if 1 / 2 < x - ⌊x⌋ then ⌊x⌋ + 1
  else if ⌊x⌋ % 2 = 0 then ⌊x⌋ else ⌊x⌋ + 1

/-- `round(t, 4)`, line 129, on a real number. -/
def _root_.PyCTBN.round4R (x : ℝ) : ℚ := (rintR (x * 10000) : ℚ) / 10000

/-- The rows appended to the frame, lines 81 and 129: the time of each move, rounded, with the joint state after it. -/
def rowsOfMoves : ℝ → List Nat → List Move → List (ℚ × List Nat)
  | t, vals, [] => [(round4R t, vals)]
  | t, vals, m :: ms => (round4R t, vals) :: rowsOfMoves (t + m.hold) (vals.set m.var m.target) ms

/-- `CTBN_Sample(max_tr = n)`, lines 67-137, with real-valued clocks: `n` moves, then the states of the last row are overwritten.  (The pass that stops,
lines 87-110, draws event times but uses none.) -/
def sampleR (net : SampleNet) (n : Nat) (d : Nat → PassDraws) : Py (List (ℚ × List ℤ)) := do
  let ms ← net.movesR n d net.initClock
  return terminate (rowsOfMoves 0 (net.vnames.map (fun _ => 0)) ms)

end SampleNet

end

end PyCTBN
