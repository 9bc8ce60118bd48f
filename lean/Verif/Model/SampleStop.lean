import Verif.Model.SampleLaw

/-!
# Model of `CTBN_Sample` of `PyCTBN/PyCTBN/structure_graph/trajectory_generator.py` with real-valued clocks and both limits

`Verif.Model.SampleLaw` with the stop condition of line 107, so that the number of moves depends on the draws.
-/

namespace PyCTBN

noncomputable section

open Classical in
/-- The stop condition, line 107, with a real clock. -/
def SampleNet.stopsR (tEnd : ℝ) (maxTr : ℤ) (t : ℝ) (nTr : Nat) : Bool :=
  (decide (maxTr ≠ -1) && decide ((nTr : ℤ) = maxTr)) || (decide (tEnd ≠ -1) && decide (tEnd ≤ t))

namespace SampleNet

/-- The loop of lines 86-137 for at most `fuel` passes, from the state `s` after `nTr` moves: the moves until the pass that stops.  A pass draws the missing event times and
finds the first event (lines 87-105), then stops (lines 107-110) or makes the move (lines 112-137; `passR` computes the same event times again). -/
def runR (net : SampleNet) (tEnd : ℝ) (maxTr : ℤ) : Nat → Nat → (Nat → PassDraws) → ClockState → Py (List Move)
  | 0, _, _, _ => .error .outOfFuel
  | fuel + 1, nTr, d, s => do
    let times ← net.fillTimersR s.vals s.t (d 0).exp s.timers
    let (_, t) ← argminR times
    if stopsR tEnd maxTr t nTr then return []
    let (m, s') ← net.passR (d 0) s
    let ms ← net.runR tEnd maxTr fuel (nTr + 1) (fun j => d (j + 1)) s'
    return m :: ms

/-- `CTBN_Sample(t_end, max_tr)`, lines 67-137, with real-valued clocks, for at most `fuel` passes through the loop. -/
def sampleStopR (net : SampleNet) (tEnd : ℝ) (maxTr : ℤ) (d : Nat → PassDraws) (fuel : Nat) : Py (List (ℚ × List ℤ)) := do
  let ms ← net.runR tEnd maxTr fuel 0 d net.initClock
  return terminate (rowsOfMoves 0 (net.vnames.map (fun _ => 0)) ms)

end SampleNet

end

end PyCTBN
