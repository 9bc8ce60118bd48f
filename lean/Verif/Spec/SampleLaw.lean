import Verif.Spec.TrajGen
import Verif.Model.SampleLaw
import Mathlib.Probability.Distributions.Exponential
import Mathlib.Probability.ProductMeasure

/-!
# Specification vocabulary for the probability law of sampled trajectories
-/

open MeasureTheory ProbabilityTheory
open scoped ENNReal

namespace PyCTBN.Spec

noncomputable section

/-! ## Independent random draws -/

/-- A source of multinomial choices on the probability space `(U, P)`: with weights `w`, the index `y` is chosen with
probability `w y / ∑ w`. -/
structure Categorical (U : Type) [MeasurableSpace U] (P : Measure U) where
  pick : List ℚ → U → Nat
  meas : ∀ w y, MeasurableSet {u | pick w u = y}
  law : ∀ w, (∀ x ∈ w, 0 ≤ x) → 0 < w.sum → ∀ y, P {u | pick w u = y} = ENNReal.ofReal (((w[y]?).getD 0 / w.sum : ℚ) : ℝ)

/-- Independent draws for every pass of the loop: one standard exponential draw for each of `m` variables, and one multinomial choice. -/
def drawLaw (m : Nat) {U : Type} [MeasurableSpace U] (P : Measure U) [IsProbabilityMeasure P] : Measure (ℕ → (Fin m → ℝ) × U) :=
  haveI : IsProbabilityMeasure (expMeasure 1) := isProbabilityMeasure_expMeasure one_pos
  Measure.infinitePi (fun _ : ℕ => (Measure.pi (fun _ : Fin m => expMeasure 1)).prod P)

/-- The draws of the passes at the outcome `ω`. -/
def drawsAt {m : Nat} {U : Type} [MeasurableSpace U] {P : Measure U} (C : Categorical U P) (ω : ℕ → (Fin m → ℝ) × U) (n : Nat) : PassDraws :=
  ⟨fun i => if h : i < m then (ω n).1 ⟨i, h⟩ else 0, fun w => C.pick w (ω n).2⟩

/-- `(k, y, a)`: the variable in position `k` moves to the state `y`, more than `a` after the previous move. -/
abbrev MoveEvent := Nat × Nat × ℝ

/-- The moves a run makes are as `L` says. -/
def MovesAre (r : Py (List Move)) (L : List MoveEvent) : Prop :=
  ∃ ms, r = .ok ms ∧ List.Forall₂ (fun (m : Move) (c : MoveEvent) => m.var = c.1 ∧ m.target = c.2.1 ∧ c.2.2 < m.hold) ms L

/-- A list of moves of the variables of the network to states they have. -/
def Proper (N : Ctbn) (L : List MoveEvent) : Prop := ∀ c ∈ L, ∃ v, N.vars[c.1]? = some v ∧ c.2.1 < N.card v ∧ 0 ≤ c.2.2

/-! ## Markov jump processes on the joint states of a network -/

/-- `rate vals v y`: the rate at which the variable `v` moves to the state `y` in a joint state. -/
abbrev Rates := List Nat → Label → Nat → ℝ

/-- The rate at which the joint state is left. -/
def totalRate (N : Ctbn) (rate : Rates) (vals : List Nat) : ℝ := (N.vars.map (fun v => ((List.range (N.card v)).map (rate vals v)).sum)).sum

/-- The probability that the first moves of a Markov jump process with these rates, from a joint state, are as `L` says: the
process stays in a joint state for an exponential time with the total rate `R`, and then makes a move with probability
the rate of the move divided by `R`. -/
def jumpLaw (N : Ctbn) (rate : Rates) : List MoveEvent → List Nat → ℝ
  | [], _ => 1
  | (k, y, a) :: L, vals =>
    let R := totalRate N rate vals
    rate vals (N.vars.getD k "") y / R * Real.exp (-(R * a)) * jumpLaw N rate L (vals.set k y)

/-- The rates of the network: the intensities of its matrices. -/
def Ctbn.rates (N : Ctbn) : Rates := fun vals v y => if y = N.state vals v then 0 else (N.intensity vals v y : ℝ)

/-- The sum of the intensities with which `v` moves to other states. -/
def Ctbn.outRate (N : Ctbn) (vals : List Nat) (v : Label) : ℝ := ((List.range (N.card v)).map (N.rates vals v)).sum

/-- The rates of the process the sampler follows: the target is chosen by the intensities, but the rate is the inverse of the exit intensity. -/
def Ctbn.inverseRates (N : Ctbn) : Rates := fun vals v y => 1 / (N.exitRate vals v : ℝ) * (N.rates vals v y / N.outRate vals v)

/-- Every matrix entry on the diagonal is minus the sum of the others in its row. -/
def Ctbn.Conservative (N : Ctbn) : Prop := ∀ vals, N.InRange vals → ∀ v ∈ N.vars, (N.exitRate vals v : ℝ) = N.outRate vals v

/-- Every exit intensity is positive. -/
def Ctbn.Leaves (N : Ctbn) : Prop := ∀ vals, N.InRange vals → ∀ v ∈ N.vars, 0 < N.exitRate vals v

/-- The joint states that can be reached from the initial state, where every variable is in state 0. -/
inductive Ctbn.Reaches (N : Ctbn) : List Nat → Prop
  | start : N.Reaches (N.vars.map (fun _ => 0))
  | move {vals : List Nat} {k y : Nat} {v : Label} : N.Reaches vals → N.vars[k]? = some v → y < N.card v → 0 < N.rates vals v y →
      N.Reaches (vals.set k y)

end

end PyCTBN.Spec
