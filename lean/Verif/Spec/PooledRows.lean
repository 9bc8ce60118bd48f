import Verif.Spec.LongRun

/-!
# Specification vocabulary: many trajectories of one network
-/

open MeasureTheory

namespace PyCTBN.Spec

noncomputable section

/-- How long, in a list of moves from the joint state `vals`, `v` is in the state `x` while the variables `L` are in the states `u`. -/
def circumstanceTime (N : Ctbn) (v : Label) (L : List Label) (x : Nat) (u : List Nat) : List Nat → List Move → ℝ
  | _, [] => 0
  | vals, m :: ms => (if Circumstances N v L x u vals then m.hold else 0) + circumstanceTime N v L x u (vals.set m.var m.target) ms

/-- The law of the draws of calls one after the other: those of different calls are independent. -/
def manyLaw (m : Nat) {U : Type} [MeasurableSpace U] (P : Measure U) [IsProbabilityMeasure P] : Measure (ℕ → ℕ → (Fin m → ℝ) × U) :=
  haveI : IsProbabilityMeasure (drawLaw m P) := by
    haveI : IsProbabilityMeasure (ProbabilityTheory.expMeasure 1) := ProbabilityTheory.isProbabilityMeasure_expMeasure one_pos
    unfold drawLaw; infer_instance
  Measure.infinitePi (fun _ : ℕ => drawLaw m P)

end

end PyCTBN.Spec
