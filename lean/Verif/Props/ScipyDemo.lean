import Verif.Props.ScipyQuantiles

/-! # C219, C220: concrete cases -/
namespace PyCTBN
open MeasureTheory ProbabilityTheory Spec Indep Filter Topology JumpPaths
namespace Demo

/-- C219: at level 0.1, with the quantiles of the actual distributions, long trajectories sampled from `X → Y` let constraint-based
estimation keep the edge. -/
example : Tendsto (fun m => drawLaw 2 (Measure.infinitePi choiceLaw)
      {ω | ¬ KeepsEdges pairCtbn [] (scipyParams (1 / 10) (1 / 10) 25) [] [sampledRows pairNet someCategorical m ω]}) atTop (𝓝 0) :=
  telling_edges_kept pair_describes pair_ok someCategorical (by unfold NoSuffixClash; decide) (by decide) pair_conservative pair_allPositive (by norm_num) (fun _ _ => rfl)
    (by decide) pair_parents_tell [] (scipy_tighten (by norm_num) (by norm_num) (by norm_num) (by norm_num) le_rfl) []

/-- 20000 exits from each of two states. -/
def manyExits : Nat → Nat → Nat := fun _ _ => 20000

/-- C220: at level 0.05, exit rates 1 and 3 seen in 20000 exits each are told apart. -/
example : independenceTest (scipyParams (1 / 20) (1 / 20) 25) 2 (cimOf 2 (fun _ => 20000) manyExits (fun x y => if x = y then -1 else 1))
    (cimOf 2 (fun _ => 20000 / 3) manyExits (fun x y => if x = y then -3 else 3)) 2 ≠ .ok .accept := by
  have hE : ExitCounts 2 manyExits := by
    intro x hx
    have : ((Finset.range 2).erase x).card = 1 := by
      rw [Finset.card_erase_of_mem (by simpa using hx)]; rfl
    simp [manyExits, this]
  refine difference_detected (by norm_num) (by norm_num) (by norm_num) (by norm_num) hE hE 2 (x := 0) (by norm_num) (.inl ⟨1, ?_⟩)
  norm_num [manyExits]

/-- C220: three states, left 1000 times for one of the others in one sample and for the other in the other sample. -/
example : ChiExceeds (scipyParams (1 / 20) (1 / 20) 25) 3 (fun _ y => if y = 0 then 1000 else if y = 1 then 900 else 100)
    (fun _ y => if y = 0 then 1000 else if y = 1 then 100 else 900) 0 := by
  refine chi_statistic_rejected (by norm_num) (by norm_num) (by norm_num) ?_ ?_
  · intro y hy hy0
    interval_cases y
    · simp at hy0
    · norm_num
    · norm_num
  · have e : (Finset.range 3).erase 0 = {1, 2} := by decide
    have h : Real.sqrt (2 * (((3 : ℕ) : ℝ) - 1) / (1 / 20)) ≤ 9 := by
      rw [Real.sqrt_le_left (by norm_num)]; norm_num
    have : chiSquare 3 (fun _ y => if y = 0 then 1000 else if y = 1 then 900 else 100)
        (fun _ y => if y = 0 then 1000 else if y = 1 then 100 else 900) 0 = 1280 := by
      unfold chiSquare
      rw [e, Finset.sum_pair (by norm_num)]
      norm_num
    rw [this]
    push_cast at h ⊢
    linarith

end Demo
end PyCTBN
