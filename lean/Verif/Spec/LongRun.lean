import Verif.Spec.SampleStats
import Verif.Spec.Assign
import Mathlib.Algebra.BigOperators.Group.Finset.Basic
import Mathlib.Logic.Relation

/-!
# Specification vocabulary: the long run of a Markov jump process on the joint states of a network
-/

namespace PyCTBN.Spec

noncomputable section

/-- The process can go from the joint state `a` to `b` in one move. -/
def Ctbn.Moves (N : Ctbn) (a b : List Nat) : Prop := ∃ k y v, N.vars[k]? = some v ∧ y < N.card v ∧ 0 < N.rates a v y ∧ b = a.set k y

/-- Every joint state leads to every other. -/
def Ctbn.Irreducible (N : Ctbn) : Prop := ∀ a b, N.InRange a → N.InRange b → Relation.ReflTransGen N.Moves a b

/-- In every joint state, every variable can move to each of its other states. -/
def Ctbn.AllPositive (N : Ctbn) : Prop := ∀ vals, N.InRange vals → ∀ v ∈ N.vars, ∀ y < N.card v, y ≠ N.state vals v → 0 < N.intensity vals v y

/-- All joint states. -/
def Ctbn.joint (N : Ctbn) : Finset (List Nat) := (assignments (N.vars.map N.card)).toFinset

/-- The rate at which a process with the given rates goes from the joint state `a` to `b`. -/
def flow (N : Ctbn) (rate : Rates) (a b : List Nat) : ℝ :=
  ∑ k ∈ Finset.range N.vars.length, ∑ y ∈ Finset.range (N.card (N.vars.getD k "")), if a.set k y = b then rate a (N.vars.getD k "") y else 0

/-- A stationary distribution of a process with the given rates: as much probability flows into a joint state as out of it. -/
structure Stationary (N : Ctbn) (rate : Rates) (π : List Nat → ℝ) : Prop where
  nonneg : ∀ a ∈ N.joint, 0 ≤ π a
  one : ∑ a ∈ N.joint, π a = 1
  balance : ∀ b ∈ N.joint, ∑ a ∈ N.joint, π a * flow N rate a b = π b * totalRate N rate b

/-- `v` is in the state `x` and the variables `L` are in the states `u`. -/
def Circumstances (N : Ctbn) (v : Label) (L : List Label) (x : Nat) (u : List Nat) (vals : List Nat) : Prop := N.state vals v = x ∧ L.map (N.state vals) = u

instance (N : Ctbn) (v : Label) (L : List Label) (x : Nat) (u : List Nat) (vals : List Nat) : Decidable (Circumstances N v L x u vals) := by
  unfold Circumstances; infer_instance

/-- The stationary probability of circumstances. -/
def share (N : Ctbn) (π : List Nat → ℝ) (v : Label) (L : List Label) (x : Nat) (u : List Nat) : ℝ :=
  ∑ a ∈ N.joint, if Circumstances N v L x u a then π a else 0

/-- The stationary rate at which `v` moves to `y`, in these circumstances. -/
def flux (N : Ctbn) (rate : Rates) (π : List Nat → ℝ) (v : Label) (L : List Label) (x y : Nat) (u : List Nat) : ℝ :=
  ∑ a ∈ N.joint, if Circumstances N v L x u a then π a * rate a v y else 0

/-- The stationary mean rate at which `v` moves to `y`, given these circumstances. -/
def meanRate (N : Ctbn) (rate : Rates) (π : List Nat → ℝ) (v : Label) (L : List Label) (x y : Nat) (u : List Nat) : ℝ := flux N rate π v L x y u / share N π v L x u

/-- In the stationary process `p` matters to `n` beyond `K`: given some states of `K` there are two states of `p` under which `n` moves from some state to some other at
different mean rates. -/
def StationaryMatters (N : Ctbn) (rate : Rates) (π : List Nat → ℝ) (n : Label) (K : List Label) (p : Label) : Prop :=
  ∃ f : Label → Nat, (∀ q ∈ N.vars, f q < N.card q) ∧ ∃ x y z z', x < N.card n ∧ y < N.card n ∧ y ≠ x ∧ z < N.card p ∧ z' < N.card p ∧
    meanRate N rate π n (p :: K) x y (z :: K.map f) ≠ meanRate N rate π n (p :: K) x y (z' :: K.map f)

/-- The states of the parents of `n` when each variable `q` is in the state `f q`. -/
def Ctbn.parentsAt (N : Ctbn) (n : Label) (f : Label → Nat) : List Nat := (N.parents n).map f

/-- The parent `p` of `n` tells: for two states `z`, `z'` of `p`, `n` moves in the sampled process from some `x` to some `y` more slowly under `z` than under `z'`, whatever the
states of the other parents. -/
def Tells (N : Ctbn) (p n : Label) : Prop :=
  ∃ x y z z', x < N.card n ∧ y < N.card n ∧ y ≠ x ∧ z < N.card p ∧ z' < N.card p ∧
    ∀ f g : Label → Nat, (∀ q ∈ N.vars, f q < N.card q) → (∀ q ∈ N.vars, g q < N.card q) → f p = z → g p = z' →
      N.inverseAt n (N.parentsAt n f) x y < N.inverseAt n (N.parentsAt n g) x y

/-- The edges of a network. -/
def Ctbn.edges (N : Ctbn) : Finset Edge := N.vars.toFinset.biUnion (fun n => (N.parents n).toFinset.image (fun p => (p, n)))

/-- The stationary number of moves per unit of time. -/
def pace (N : Ctbn) (rate : Rates) (π : List Nat → ℝ) : ℝ := ∑ a ∈ N.joint, π a * totalRate N rate a

end

end PyCTBN.Spec
