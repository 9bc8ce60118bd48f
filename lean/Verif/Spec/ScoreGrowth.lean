import Verif.Spec.ScoreConsistency

/-!
# Specification vocabulary: growing data sets and the score
-/

namespace PyCTBN.Spec
open Filter Topology

/-- As the data grow to a size `N k`, state `x` is occupied for a share of the size that tends to `T > 0`, and is left for each other state `y` at a rate that tends
to `ρ y`. -/
structure SettlesAt (N : ℕ → ℝ) (o : ℕ → Stats) (c x : Nat) (T : ℝ) (ρ : Nat → ℝ) : Prop where
  pos : 0 < T
  share : Tendsto (fun k => ((o k).time x : ℝ) / N k) atTop (𝓝 T)
  rate : ∀ y, y < c → y ≠ x → Tendsto (fun k => ((o k).count x y : ℝ) / ((o k).time x : ℝ)) atTop (𝓝 (ρ y))

/-- State `x` never occurs, or its share and its rates settle. -/
def Settles (N : ℕ → ℝ) (o : ℕ → Stats) (c x : Nat) : Prop := (∀ k, (o k).time x = 0) ∨ ∃ T ρ, SettlesAt N o c x T ρ

/-- The behaviour of `n` settles in all circumstances given by states of `K` and `p`. -/
def BehaviourSettles (s : Structure) (N : ℕ → ℝ) (ts : ℕ → Trajectory) (n : Label) (c : Nat) (K : List Label) (p : Label) : Prop :=
  ∀ a : Label → Nat, (∀ q, a q < c) → ∀ x z, x < c → z < c → Settles N (fun k => givenWith s (ts k) n c K p a z) c x

/-- In the long run `p` matters to `n` beyond `K`: in some circumstances there are two states of `p` under which `n` goes from some state `x` to some state `y` at
rates that tend to different numbers. -/
def MattersInTheLongRun (s : Structure) (N : ℕ → ℝ) (ts : ℕ → Trajectory) (n : Label) (c : Nat) (K : List Label) (p : Label) : Prop :=
  ∃ a : Label → Nat, (∀ q, a q < c) ∧ ∃ x y z z', x < c ∧ y < c ∧ y ≠ x ∧ z < c ∧ z' < c ∧ ∃ T T' ρ ρ',
    SettlesAt N (fun k => givenWith s (ts k) n c K p a z) c x T ρ ∧ SettlesAt N (fun k => givenWith s (ts k) n c K p a z') c x T' ρ' ∧ ρ y ≠ ρ' y

/-- As `SettlesAt`, with positive limits `ρ` and an error that is small in the following sense: the number of moves differs from `ρ y` times the time spent by less
than any given multiple of the square root of `N log N`, from some point on. -/
structure FluctuatesAt (N : ℕ → ℝ) (o : ℕ → Stats) (c x : Nat) (T : ℝ) (ρ : Nat → ℝ) : Prop where
  pos : 0 < T
  share : Tendsto (fun k => ((o k).time x : ℝ) / N k) atTop (𝓝 T)
  rate : ∀ y, y < c → y ≠ x → 0 < ρ y ∧ Tendsto (fun k => (((o k).count x y : ℝ) - ρ y * ((o k).time x : ℝ)) ^ 2 / (N k * Real.log (N k))) atTop (𝓝 0)

/-- In the long run `p` is superfluous to `n` given `K`: in all circumstances, all states of `p` occur and `n` goes from any state to any other at the same rate under
each of them, up to small fluctuations. -/
def SuperfluousInTheLongRun (s : Structure) (N : ℕ → ℝ) (ts : ℕ → Trajectory) (n : Label) (c : Nat) (K : List Label) (p : Label) : Prop :=
  ∀ a : Label → Nat, (∀ q, a q < c) → ∀ x, x < c → ∃ ρ : Nat → ℝ, ∀ z, z < c → ∃ T, FluctuatesAt N (fun k => givenWith s (ts k) n c K p a z) c x T ρ

/-- In the long run all states of `n`, `K` and `p` occur together, and the rates settle. -/
def OccursInTheLongRun (s : Structure) (N : ℕ → ℝ) (ts : ℕ → Trajectory) (n : Label) (c : Nat) (K : List Label) (p : Label) : Prop :=
  ∀ a : Label → Nat, (∀ q, a q < c) → ∀ x z, x < c → z < c → ∃ T ρ, SettlesAt N (fun k => givenWith s (ts k) n c K p a z) c x T ρ

end PyCTBN.Spec
