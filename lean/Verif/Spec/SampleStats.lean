import Verif.Spec.SampleLaw

/-!
# Specification vocabulary: the statistics of a list of moves
-/

namespace PyCTBN.Spec

noncomputable section

/-- `v` is in the state `x` and its parents are in the states `u`. -/
def InCase (N : Ctbn) (v : Label) (x : Nat) (u : List Nat) (vals : List Nat) : Prop := N.state vals v = x ∧ N.parentStates vals v = u

instance (N : Ctbn) (v : Label) (x : Nat) (u : List Nat) (vals : List Nat) : Decidable (InCase N v x u vals) := by
  unfold InCase; infer_instance

/-- How often, in a list of moves from the joint state `vals`, `v` moves from `x` to `y` while its parents are in the states `u`. -/
def moveCount (N : Ctbn) (v : Label) (x y : Nat) (u : List Nat) : List Nat → List Move → Nat
  | _, [] => 0
  | vals, m :: ms => (if InCase N v x u vals ∧ N.vars[m.var]? = some v ∧ m.target = y then 1 else 0)
      + moveCount N v x y u (vals.set m.var m.target) ms

/-- How long, in a list of moves from the joint state `vals`, `v` is in `x` while its parents are in the states `u`. -/
def timeSpent (N : Ctbn) (v : Label) (x : Nat) (u : List Nat) : List Nat → List Move → ℝ
  | _, [] => 0
  | vals, m :: ms => (if InCase N v x u vals then m.hold else 0) + timeSpent N v x u (vals.set m.var m.target) ms

/-- The intensity the network gives to moving `v` from `x` to `y` when its parents are in the states `u`. -/
def Ctbn.intensityAt (N : Ctbn) (v : Label) (u : List Nat) (x y : Nat) : ℚ := cell (N.cim v u) x y

/-- The exit intensity of `x` when the parents are in the states `u`: minus the diagonal entry. -/
def Ctbn.exitAt (N : Ctbn) (v : Label) (u : List Nat) (x : Nat) : ℚ := -(N.intensityAt v u x x)

/-- The intensity divided by the square of the exit intensity. -/
def Ctbn.inverseAt (N : Ctbn) (v : Label) (u : List Nat) (x y : Nat) : ℝ := (N.intensityAt v u x y : ℝ) / (N.exitAt v u x : ℝ) ^ 2

/-- What the library estimates from these moves: the observed transitions plus one, over the time plus one.  The last move is not observed: the
states of the last row of a sampled trajectory are overwritten. -/
def estimateAt (N : Ctbn) (v : Label) (x y : Nat) (u : List Nat) (vals : List Nat) (ms : List Move) : ℝ :=
  ((moveCount N v x y u vals ms.dropLast : ℝ) + 1) / (timeSpent N v x u vals ms + 1)

/-- The moves a run makes (none if it fails). -/
def movesOf (r : Py (List Move)) : List Move := match r with | .ok ms => ms | .error _ => []

end

end PyCTBN.Spec
