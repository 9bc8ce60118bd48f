import Verif.Spec.TrajGen
import Verif.Spec.Float
import Verif.Model.FloatSample

/-!
# Specification vocabulary for sampling in floating point
-/

namespace PyCTBN.Spec

/-- The entries of the network's matrices are floats, and no variable has so many states that the rounding errors of a sum over them reach the
`1e-12` that numpy tolerates (in `float64`: no more than 4000). -/
structure FloatNet (u : ℚ) (rnd : ℚ → ℚ) (N : Ctbn) : Prop where
  floats : ∀ v ∈ N.vars, ∀ us, InRangeAssign (N.parentCards v) us → ∀ r ∈ N.cim v us, ∀ x ∈ r, rnd x = x
  small : ∀ v ∈ N.vars, 1 ≤ rnd (1 + rnd (1 / 10 ^ 12)) * (1 - u) ^ (2 * N.card v + 2)

/-- `CTBN_Sample(t_end, max_tr)` returns these rows. -/
def SamplesF (rnd : ℚ → ℚ) (net : SampleNet) (tEnd : ℚ) (maxTr : ℤ) (draws : SampleDrawsF) (rows : RawTraj) : Prop :=
  ∃ fuel, net.sampleF rnd tEnd maxTr draws fuel = .ok rows

/-- The states the loop goes through, before each pass. -/
inductive VisitsF (rnd : ℚ → ℚ) (net : SampleNet) (tEnd : ℚ) (maxTr : ℤ) (draws : SampleDrawsF) : SampleState → Prop
  | init : VisitsF rnd net tEnd maxTr draws net.initState
  | step {s s'} : VisitsF rnd net tEnd maxTr draws s → net.stepF rnd tEnd maxTr draws s = .ok (.next s') → VisitsF rnd net tEnd maxTr draws s'

/-- From one joint state to the next, one variable moves to another state, to which it has a positive intensity, and nothing else changes. -/
def Genuine (N : Ctbn) (a b : List Nat) : Prop :=
  ∃ (k : Nat) (v : Label) (y : Nat), N.vars[k]? = some v ∧ y < N.card v ∧ y ≠ N.state a v ∧ 0 < N.intensity a v y ∧ b = a.set k y

/-- From one joint state to the next, one variable with at least three states "moves" to its last state, though it is already there or has
intensity zero to get there; nothing else changes. -/
def Phantom (N : Ctbn) (a b : List Nat) : Prop :=
  ∃ (k : Nat) (v : Label) (y : Nat), N.vars[k]? = some v ∧ y + 1 = N.card v ∧ 3 ≤ N.card v ∧ (y = N.state a v ∨ N.intensity a v y = 0) ∧ b = a.set k y

end PyCTBN.Spec
