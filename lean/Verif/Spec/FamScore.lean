import Verif.Model.FamScore
import Mathlib.Algebra.BigOperators.Group.Finset.Basic
import Mathlib.MeasureTheory.Integral.Bochner.Set

/-!
# Specification vocabulary for the FamScore: marginal likelihoods as probability theory states them
-/

namespace PyCTBN.Spec
open MeasureTheory

/-- Density of the Gamma distribution with shape `a` and rate `b` at `q`. -/
noncomputable def gammaDensity (a b q : ℝ) : ℝ := b ^ a / Real.Gamma a * q ^ (a - 1) * Real.exp (-(b * q))

/-- Likelihood of `m` exits within total time `t` at rate `q`. -/
noncomputable def exitLikelihood (m : Nat) (t q : ℝ) : ℝ := q ^ m * Real.exp (-(q * t))

/-- Marginal likelihood of the exits: the likelihood averaged over the Gamma prior with shape `α + 1` and rate `τ`. -/
noncomputable def exitMarginal (τ α : ℝ) (m : Nat) (t : ℝ) : ℝ :=
  ∫ q in Set.Ioi (0 : ℝ), gammaDensity (α + 1) τ q * exitLikelihood m t q

/-- `a (a+1) ⋯ (a+n-1)`. -/
noncomputable def rising (a : ℝ) (n : Nat) : ℝ := ∏ k ∈ Finset.range n, (a + k)

/-- Marginal likelihood of a sequence of targets with the given counts under a symmetric Dirichlet prior of total weight
`α` on the other states, by sequential prediction (Pólya urn): the `k`-th visit of a target whose weight is `w` has
probability proportional to `w + k`. -/
noncomputable def targetMarginal (α w : ℝ) (targets : Finset Nat) (m : Nat → Nat) : ℝ :=
  (∏ y ∈ targets, rising w (m y)) / rising α (∑ y ∈ targets, m y)

/-- The Pólya urn: probability of a sequence of targets when each target has weight `w` and the total weight is `α`, given
the targets seen so far. -/
noncomputable def urnProb (α w : ℝ) (past : List Nat) : List Nat → ℝ
  | [] => 1
  | y :: ys => (w + past.count y) / (α + past.length) * urnProb α w (y :: past) ys

/-- The statistics of one parent assignment: residence times and a square matrix of counts. -/
structure Stats where
  time : Nat → ℚ
  count : Nat → Nat → Nat

/-- The CIM object holding these statistics for a node with `c` states (its intensities do not matter). -/
def Stats.toCim (c : Nat) (s : Stats) (q : List (List ℚ)) : Cim :=
  ⟨(List.range c).map s.time, (List.range c).map (fun x => (List.range c).map (s.count x)), q⟩

/-- Proper statistics: times are not negative and diagonal counts are the numbers of exits (C19). -/
structure Stats.Proper (c : Nat) (s : Stats) : Prop where
  nonneg : ∀ x, x < c → 0 ≤ s.time x
  exits : ∀ x, x < c → s.count x x = ∑ y ∈ (Finset.range c).erase x, s.count x y

/-- Marginal likelihood of the data of one parent assignment. -/
noncomputable def Stats.marginal (τ α : ℝ) (c : Nat) (s : Stats) : ℝ :=
  ∏ x ∈ Finset.range c, exitMarginal τ α (s.count x x) (s.time x) *
    targetMarginal α (α / (c - 1)) ((Finset.range c).erase x) (s.count x)

end PyCTBN.Spec
