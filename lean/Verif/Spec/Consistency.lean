import Verif.Spec.CtpcData
import Mathlib.Topology.Instances.Real.Lemmas
import Mathlib.Order.Filter.AtTopBot.Basic

/-!
# Specification vocabulary: growing data sets
-/

namespace PyCTBN.Spec
open Filter Topology

/-- As the data grow, state `x` is occupied for a total time without bound, and is left at a rate that tends to `ρ`. -/
structure LeavesAtRate (o : ℕ → Stats) (x : Nat) (ρ : ℝ) : Prop where
  time : Tendsto (fun k => ((o k).time x : ℝ)) atTop atTop
  rate : Tendsto (fun k => ((o k).count x x : ℝ) / ((o k).time x : ℝ)) atTop (𝓝 ρ)

/-- As the data grow, state `x` is left without bound, a share of the times that tends to `θ` for state `y`. -/
structure GoesToShare (o : ℕ → Stats) (x y : Nat) (θ : ℝ) : Prop where
  exits : Tendsto (fun k => ((o k).count x x : ℝ)) atTop atTop
  share : Tendsto (fun k => ((o k).count x y : ℝ) / ((o k).count x x : ℝ)) atTop (𝓝 θ)

/-- The quantiles of the F distribution used by the test tend to 1 as both degrees of freedom grow; the chi-square quantile is a number. -/
structure QuantilesTighten (P : IndepParams) (c : Nat) : Prop where
  f : ∀ ε : ℝ, 0 < ε → ∃ N : ℕ, ∀ r1 r2 : ℕ, N ≤ r1 → N ≤ r2 → ∃ lo hi : ℝ, P.fPpf (P.expTestSign / 2) r1 r2 = .fin lo ∧
    P.fPpf (1 - P.expTestSign / 2) r1 r2 = .fin hi ∧ |lo - 1| < ε ∧ |hi - 1| < ε
  chi : ∃ z : ℝ, P.chi2Ppf (1 - P.chiTestAlfa) ((c : ℝ) - 1) = .fin z

/-- In the long run the behaviour of `child` given the variables `K` differs from its behaviour given the variables `K'`: in some circumstances, some
state is left at another rate, or is left (all transitions out of it being observed) for another state with another frequency. -/
def BehavesDifferently (s : Structure) (ts : ℕ → Trajectory) (child : Label) (c : Nat) (K K' : List Label) : Prop :=
  ∃ a : Label → Nat, (∀ q, a q < c) ∧ ∃ x, x < c ∧
    ((∃ ρ ρ' : ℝ, 0 < ρ ∧ 0 < ρ' ∧ ρ ≠ ρ' ∧ LeavesAtRate (fun k => given s (ts k) child c K a) x ρ ∧
        LeavesAtRate (fun k => given s (ts k) child c K' a) x ρ') ∨
      (∃ y, y < c ∧ y ≠ x ∧ ∃ θ θ' : ℝ, θ ≠ θ' ∧ GoesToShare (fun k => given s (ts k) child c K a) x y θ ∧
        GoesToShare (fun k => given s (ts k) child c K' a) x y θ' ∧
        ∀ᶠ k in atTop, ∀ z, z < c → z ≠ x → 0 < (given s (ts k) child c K a).count x z))

/-- The data observed `n` times. -/
def repeated (t : Trajectory) (n : Nat) : Trajectory :=
  ⟨(List.replicate n t.times).flatten, (List.replicate n t.rows).flatten, t.origCols⟩

end PyCTBN.Spec
