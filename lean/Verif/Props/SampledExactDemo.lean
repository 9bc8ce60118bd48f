import Verif.Props.SampledExact
import Verif.Props.SampleDemo

/-! C217 on the demonstration network: a two-state child of a three-state parent. -/

namespace PyCTBN
open Spec
namespace Demo

theorem demo_states {vals : List Nat} (hr : ctbn.InRange vals) : ∃ x < 3, ∃ y < 2, vals = [x, y] := by
  obtain ⟨h1, h2⟩ := hr
  obtain ⟨x, y, rfl⟩ : ∃ x y, vals = [x, y] := by
    match vals, h1 with
    | [x, y], _ => exact ⟨x, y, rfl⟩
  exact ⟨x, h2 "X" (by decide), y, h2 "Y" (by decide), rfl⟩

theorem demo_exit : ∀ vals, ctbn.InRange vals → ∀ v ∈ ctbn.vars, 0 < ctbn.exitRate vals v := by
  intro vals hr v hv
  obtain ⟨x, hx, y, hy, rfl⟩ := demo_states hr
  have hall : ∀ x < 3, ∀ y < 2, ∀ v ∈ ["X", "Y"], 0 < ctbn.exitRate [x, y] v := by decide +kernel
  exact hall x hx y hy v hv

theorem demo_first : ctbn.FirstMoves := by
  have : ∀ v ∈ ["X", "Y"], 0 < ctbn.intensity [0, 0] v 1 := by decide +kernel
  exact this

/-- The statistics of `Y` given `X` are wrong for some sampled trajectory of three rows. -/
example : ∃ (rows : RawTraj) (draws : SampleDraws) (p : SamplePath) (t : Trajectory), (∀ n i, 0 < draws.exp n i) ∧ Samples net (-1) 2 draws rows ∧
    rows.length = 3 ∧ buildFromRaw [SampleNet.frame ["X", "Y"] rows] ⟨[0, 1], ["X", "Y"], [3, 2]⟩ [("X", "Y")] = .ok p ∧ p.trajectories = some t ∧
      ¬ RawStatistics ["X", "Y"] [rows] t (NetworkGraph.new (builtStruct ["X", "Y"] [3, 2] [("X", "Y")])) "Y" 2 [3] :=
  sampled_statistics_fail describes ok demo_exit demo_first (by unfold NoSuffixClash; decide) (by decide) [("X", "Y")] _
    (.new ⟨⟨by decide, rfl, rfl⟩, by decide⟩) "Y" (by decide) 2 rfl [3] rfl (by
      rintro ⟨h, -⟩
      have := h 3 (by simp)
      omega)

/-- Those of `X`, which has no parents, never are. -/
example : ∀ samples : List RawTraj, (∀ rows ∈ samples, ∃ tEnd maxTr draws, (∀ n i, 0 < draws.exp n i) ∧ Samples net tEnd maxTr draws rows) →
    (∃ rows ∈ samples, 2 ≤ rows.length) →
    ∃ (p : SamplePath) (t : Trajectory), buildFromRaw (samples.map (SampleNet.frame ["X", "Y"])) ⟨[0, 1], ["X", "Y"], [3, 2]⟩ [("X", "Y")] = .ok p ∧
      p.trajectories = some t ∧ RawStatistics ["X", "Y"] samples t (NetworkGraph.new (builtStruct ["X", "Y"] [3, 2] [("X", "Y")])) "X" 3 [] :=
  (sampled_statistics_iff describes ok demo_exit demo_first (by unfold NoSuffixClash; decide) (by decide) [("X", "Y")] _
    (.new ⟨⟨by decide, rfl, rfl⟩, by decide⟩) "X" (by decide) 3 rfl [] rfl).2 ⟨by simp, by intro p q rest h; cases h⟩

end Demo
end PyCTBN
