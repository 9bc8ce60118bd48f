import Verif.Model.Sizes
import Verif.Props.EndToEnd

/-!
# What the trajectory object holds: C225
-/

namespace PyCTBN
open Spec

/-- Duration of a raw trajectory: the last time stamp minus the first. -/
def rawDuration (raw : RawTraj) : ℚ := (raw.getLast?.map Prod.fst).getD 0 - (raw.head?.map Prod.fst).getD 0

theorem length_consecutive (raw : RawTraj) : (consecutive raw).length = raw.length - 1 := by
  unfold consecutive
  rw [List.length_zip, List.length_tail]
  omega

theorem sum_consecutive (raw : RawTraj) : ((consecutive raw).map (fun p => p.2.1 - p.1.1)).sum = rawDuration raw := by
  cases raw with
  | nil => simp [consecutive, rawDuration]
  | cons a l =>
    induction l generalizing a with
    | nil => simp [consecutive, rawDuration]
    | cons b l ih =>
      have h := ih b
      have e : consecutive (a :: b :: l) = (a, b) :: consecutive (b :: l) := rfl
      rw [e, List.map_cons, List.sum_cons, h]
      unfold rawDuration
      rw [List.getLast?_cons_cons]
      simp

theorem sum_durations (raws : List RawTraj) : (durations raws).sum = (raws.map rawDuration).sum := by
  induction raws with
  | nil => rfl
  | cons a l ih =>
    have e : durations (a :: l) = (consecutive a).map (fun p => p.2.1 - p.1.1) ++ durations l := rfl
    rw [e, List.sum_append, sum_consecutive, ih, List.map_cons, List.sum_cons]

theorem length_pairs (raws : List RawTraj) : (raws.flatMap consecutive).length = (raws.map (fun raw => raw.length - 1)).sum := by
  rw [List.length_flatMap]
  exact congrArg _ (List.map_congr_left (fun raw _ => length_consecutive raw))

/-- **C225**.  Importing raw trajectories that have at least one transition yields a `Trajectory` whose `size()` is the number of rows that have a successor, whose `times` are as
many and add up to the total duration, whose `trajectory` lists the states before every transition and whose `complete_trajectory` appends to each the states after it. -/
theorem trajectory_contents (vars : List Label) (hcl : NoSuffixClash vars) (hv : vars ≠ [])
    (f₀ : Frame) (rest : List Frame) (raws : List RawTraj) (hhdr : f₀.names = "Time" :: vars)
    (h : List.Forall₂ (fun f raw => Holds "Time" vars f raw ∧ LastLabelUnique f) (f₀ :: rest) raws)
    (hdata : ∃ raw ∈ raws, 2 ≤ raw.length) (cards : List Nat) (es : List Edge) :
    ∃ (p : SamplePath) (t : Trajectory), buildFromRaw (f₀ :: rest) ⟨List.range vars.length, vars, cards⟩ es = .ok p ∧ p.trajectories = some t ∧
      t.size = (raws.map (fun raw => raw.length - 1)).sum ∧ t.times.length = t.size ∧ t.times.sum = (raws.map rawDuration).sum ∧
      t.trajectory = (raws.flatMap consecutive).map (fun q => q.1.2) ∧ t.completeTrajectory = (raws.flatMap consecutive).map (fun q => q.1.2 ++ q.2.2) ∧
      ∀ r ∈ t.completeTrajectory, r.length = 2 * vars.length := by
  have hne : stepRows raws ≠ [] := by
    obtain ⟨raw, hr, h2⟩ := hdata
    intro hnil
    have hl := length_pairs raws
    rw [stepRows_eq, List.map_eq_nil_iff] at hnil
    rw [hnil, List.length_nil] at hl
    have := List.single_le_sum (l := raws.map (fun raw => raw.length - 1)) (fun _ _ => Nat.zero_le _) _ (List.mem_map_of_mem hr)
    omega
  obtain ⟨p, p1, -, p3, -, -, -, hw⟩ := raw_builds vars hcl hv f₀ rest raws hhdr h hne cards es
  refine ⟨p, _, p1, p3, ?_, ?_, sum_durations raws, ?_, stepRows_eq raws, ?_⟩
  · change (stepRows raws).length = _
    rw [stepRows_eq, List.length_map, length_pairs]
  · change (durations raws).length = (stepRows raws).length
    rw [stepRows_eq, List.length_map, durations, List.length_flatMap, List.length_flatMap]
    simp only [List.length_map]
  · change (stepRows raws).map (fun r => r.take (vars.length + 1 - 1)) = _
    rw [stepRows_eq, List.map_map]
    refine List.map_congr_left (fun q hq => ?_)
    simp only [Function.comp]
    rw [Nat.add_sub_cancel, List.take_left' (hw q hq).1]
  · intro r hr
    change r ∈ stepRows raws at hr
    rw [stepRows_eq] at hr
    obtain ⟨q, hq, rfl⟩ := List.mem_map.1 hr
    rw [List.length_append, (hw q hq).1, (hw q hq).2]
    omega

/-- The example frame, imported twice: four transitions lasting `2 + 2` in total. -/
example : ∃ (p : SamplePath) (t : Trajectory), buildFromRaw [exFrame, exFrame] ⟨[0, 1], ["X", "Y"], [2, 3]⟩ [] = .ok p ∧ p.trajectories = some t ∧
    t.size = 4 ∧ t.times.sum = 4 ∧ t.trajectory = [[0, 0], [1, 0], [0, 0], [1, 0]] ∧
    t.completeTrajectory = [[0, 0, 1, 0], [1, 0, 1, 2], [0, 0, 1, 0], [1, 0, 1, 2]] := by
  obtain ⟨p, t, h1, h2, h3, -, h5, h6, h7, -⟩ := trajectory_contents ["X", "Y"] (by unfold NoSuffixClash; decide) (by simp) exFrame [exFrame] [exRaw, exRaw] (by decide)
    (.cons ⟨exHolds, exLast⟩ (.cons ⟨exHolds, exLast⟩ .nil)) ⟨exRaw, by simp, by decide⟩ [2, 3] []
  refine ⟨p, t, h1, h2, h3, ?_, h6, h7⟩
  rw [h5]
  decide +kernel

end PyCTBN
