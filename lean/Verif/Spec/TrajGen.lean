import Verif.Spec.NetGen
import Verif.Spec.Importer
import Verif.Model.TrajGen

/-!
# Specification vocabulary for sampling: what a CTBN is, and what it means that the sampler was given one
-/

namespace PyCTBN.Spec

/-- A continuous time Bayesian network: variables, cardinalities, parents, and for every assignment of the parents an intensity
matrix. -/
structure Ctbn where
  vars : List Label
  card : Label → Nat
  parents : Label → List Label
  cim : Label → List Nat → List (List ℚ)

namespace Ctbn

/-- The state of the variable `v` in a joint state. -/
def state (N : Ctbn) (vals : List Nat) (v : Label) : Nat := (vals[N.vars.idxOf v]?).getD 0

/-- The states of the parents of `v` in a joint state. -/
def parentStates (N : Ctbn) (vals : List Nat) (v : Label) : List Nat := (N.parents v).map (N.state vals)

/-- The cardinalities of the parents. -/
def parentCards (N : Ctbn) (v : Label) : List Nat := (N.parents v).map N.card

/-- The intensity of moving `v` from its state to `y` in a joint state. -/
def intensity (N : Ctbn) (vals : List Nat) (v : Label) (y : Nat) : ℚ := cell (N.cim v (N.parentStates vals v)) (N.state vals v) y

/-- The intensity with which `v` leaves its state in a joint state: minus the diagonal entry. -/
def exitRate (N : Ctbn) (vals : List Nat) (v : Label) : ℚ := -(N.intensity vals v (N.state vals v))

/-- A joint state: one state per variable, within the cardinality. -/
def InRange (N : Ctbn) (vals : List Nat) : Prop := vals.length = N.vars.length ∧ ∀ v ∈ N.vars, N.state vals v < N.card v

/-- The intensity matrix of a `c`-state variable without absorbing states: square, not positive on the diagonal, not negative
elsewhere, and every state can be left. -/
structure MatrixOK (c : Nat) (m : List (List ℚ)) : Prop where
  rows : m.length = c
  cols : ∀ r ∈ m, r.length = c
  diag : ∀ i < c, cell m i i ≤ 0
  off : ∀ i < c, ∀ j < c, j ≠ i → 0 ≤ cell m i j
  leaves : ∀ i < c, ∃ j < c, j ≠ i ∧ 0 < cell m i j

/-- A usable network. -/
structure OK (N : Ctbn) : Prop where
  nonempty : N.vars ≠ []
  nodup : N.vars.Nodup
  closed : ∀ v ∈ N.vars, ∀ p ∈ N.parents v, p ∈ N.vars
  pos : ∀ v ∈ N.vars, 0 < N.card v
  cims : ∀ v ∈ N.vars, ∀ u, InRangeAssign (N.parentCards v) u → MatrixOK (N.card v) (N.cim v u)

end Ctbn

/-- The set of CIMs `s` holds the matrix `Q u` beside every assignment `u` of parents with these cardinalities, once, and nothing else;
with a single parent, in the order of its states. -/
structure Stores (cards : List Nat) (Q : List Nat → List (List ℚ)) (s : SetOfCims) : Prop where
  len : s.cims.length = s.pCombs.length
  nodup : s.pCombs.Nodup
  mem : ∀ u, u ∈ s.pCombs ↔ InRangeAssign cards u
  beside : ∀ (k : Nat) (u : List Nat) (m : Cim), s.pCombs[k]? = some u → s.cims[k]? = some m → m.cim = Q u
  single : cards.length = 1 → ∀ (k x : Nat), s.pCombs[k]? = some [x] → k = x

/-- The sampler's object describes the network `N`. -/
structure Describes (net : SampleNet) (N : Ctbn) : Prop where
  vnames : net.vnames = N.vars
  parents : net.parents = N.vars.map (fun v => (v, N.parents v))
  cims : ∀ v ∈ N.vars, ∃ s, dictGet net.cims v = .ok s ∧ Stores (N.parentCards v) (N.cim v) s

/-- `CTBN_Sample(t_end, max_tr)` returns these rows. -/
def Samples (net : SampleNet) (tEnd : ℚ) (maxTr : ℤ) (draws : SampleDraws) (rows : RawTraj) : Prop :=
  ∃ fuel, net.sample tEnd maxTr draws fuel = .ok rows

/-- `CTBN_Sample(t_end, max_tr)` runs forever. -/
def RunsForever (net : SampleNet) (tEnd : ℚ) (maxTr : ℤ) (draws : SampleDraws) : Prop :=
  ∀ fuel, net.sample tEnd maxTr draws fuel = .error .outOfFuel

/-- The states the loop of `CTBN_Sample(t_end, max_tr)` goes through, before each pass. -/
inductive Visits (net : SampleNet) (tEnd : ℚ) (maxTr : ℤ) (draws : SampleDraws) : SampleState → Prop
  | init : Visits net tEnd maxTr draws net.initState
  | step {s s'} : Visits net tEnd maxTr draws s → net.step tEnd maxTr draws s = .ok (.next s') → Visits net tEnd maxTr draws s'

/-- The two joint states differ in the variable in position `i` and nowhere else. -/
def DifferOnlyAt (i : Nat) (a b : List Nat) : Prop := a.length = b.length ∧ a[i]? ≠ b[i]? ∧ ∀ j : Nat, j ≠ i → a[j]? = b[j]?

/-- The two joint states agree on the variable `v` and on its parents. -/
def FamilyAgrees (N : Ctbn) (v : Label) (a b : List Nat) : Prop :=
  N.state a v = N.state b v ∧ ∀ p ∈ N.parents v, N.state a p = N.state b p

/-- `x` is an event time of the variable `v` in position `i` that the network prescribes in the state `s` of the loop, whose joint state
is `cur`: it was drawn at the latest change of the variable or of one of its parents (in pass `n`, at time `t₀`), with the exit
intensity that the network assigns to the current state of the variable under the current states of its parents. -/
def DrawnForCurrent (N : Ctbn) (net : SampleNet) (tEnd : ℚ) (maxTr : ℤ) (draws : SampleDraws) (s : SampleState) (cur : List Nat)
    (v : Label) (i : Nat) (x : ℚ) : Prop :=
  ∃ (n : Nat) (s₀ : SampleState), Visits net tEnd maxTr draws s₀ ∧ s₀.nTr = n ∧ n ≤ s.nTr ∧
    x = s₀.t + N.exitRate cur v * draws.exp n i ∧
    (∀ (m : Nat) (r : ℚ × List Nat), n ≤ m → s.rows[m]? = some r → FamilyAgrees N v r.2 cur) ∧
    (n = 0 ∨ ∃ r : ℚ × List Nat, s.rows[n - 1]? = some r ∧ ¬ FamilyAgrees N v r.2 cur)

end PyCTBN.Spec
