import Verif.Model.Indep
import Mathlib.Algebra.BigOperators.Group.Finset.Basic

/-!
# Specification vocabulary for the two-CIM test
-/

namespace PyCTBN.Spec

/-- The `c × c` matrix with given entries. -/
def matrixOf {α : Type} (c : Nat) (m : Nat → Nat → α) : List (List α) :=
  (List.range c).map (fun x => (List.range c).map (m x))

/-- A CIM with `c` states: residence times, transition counts and intensities. -/
def cimOf (c : Nat) (t : Nat → ℚ) (m : Nat → Nat → Nat) (q : Nat → Nat → ℚ) : Cim :=
  ⟨(List.range c).map t, matrixOf c m, matrixOf c q⟩

/-- Every diagonal count is the number of transitions out of the state (what estimation guarantees, C19). -/
def ExitCounts (c : Nat) (m : Nat → Nat → Nat) : Prop :=
  ∀ x, x < c → m x x = ∑ y ∈ (Finset.range c).erase x, m x y

/-- The data-size rule fails: fewer than `threshold` transitions per degree of freedom. -/
def Scarce (P : IndepParams) (c : Nat) (m : Nat → Nat → Nat) (thumb : Nat) : Prop :=
  2 < c ∧ (XR.div ((∑ x ∈ Finset.range c, m x x : ℕ) : ℝ) (thumb : ℝ)).lt (.fin P.thumbThreshold)

/-- State `x` leaves the acceptance interval of the F test. -/
def FOutside (P : IndepParams) (m1 m2 : Nat → Nat → Nat) (q1 q2 : Nat → Nat → ℚ) (x : Nat) : Prop :=
  (XR.div (q2 x x : ℝ) (q1 x x : ℝ)).lt (P.fPpf (P.expTestSign / 2) (m1 x x) (m2 x x)) ∨
    (P.fPpf (1 - P.expTestSign / 2) (m1 x x) (m2 x x)).lt (XR.div (q2 x x : ℝ) (q1 x x : ℝ))

/-- The two-sample chi-square statistic of state `x`: `Σ (r₁ m₂ - r₂ m₁)² / (r₁ r₂ (m₁ + m₂))` over the other states. -/
noncomputable def chiSquare (c : Nat) (m1 m2 : Nat → Nat → Nat) (x : Nat) : ℝ :=
  ∑ y ∈ (Finset.range c).erase x, ((m1 x x : ℝ) * m2 x y - m2 x x * m1 x y) ^ 2 / (m1 x x * m2 x x * (m1 x y + m2 x y))

/-- The statistic is a number: the state is left in both samples, and every transition out of it is observed at least
once (or there is no other state). -/
def ChiDefined (c : Nat) (m1 m2 : Nat → Nat → Nat) (x : Nat) : Prop :=
  ∀ y, y < c → y ≠ x → 0 < m1 x x ∧ 0 < m2 x x ∧ 0 < m1 x y + m2 x y

/-- State `x` exceeds the quantile of the chi-square test. -/
def ChiExceeds (P : IndepParams) (c : Nat) (m1 m2 : Nat → Nat → Nat) (x : Nat) : Prop :=
  ChiDefined c m1 m2 x ∧ (P.chi2Ppf (1 - P.chiTestAlfa) ((c : ℝ) - 1)).lt (.fin (chiSquare c m1 m2 x))

end PyCTBN.Spec
