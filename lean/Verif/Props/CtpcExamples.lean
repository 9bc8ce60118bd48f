import Verif.Props.CtpcSens

/-! # Concrete runs that meet the hypotheses of C135-C146 -/

namespace PyCTBN
open Spec Indep
namespace Demo

/-- C135, C137, C142: three variables, two states, the test of `Y` as a parent of `X` given `Z`. -/
example : ∃ E P, UniformRun E P 2 ∧ ValidTest E "Y" "X" ["Z"] ∧ MonotoneQuantiles P :=
  ⟨⟨sXYZ, 3, levelData, independenceTest levelParams⟩, levelParams,
    uniformRun_of sXYZ_wf levelData_ok (by decide) (by norm_num) rfl (by decide),
    ⟨by change "Y" ∈ sXYZ.labels; decide, by change "X" ∈ sXYZ.labels; decide, by change ∀ q ∈ ["Z"], q ∈ sXYZ.labels; decide, by decide, by decide,
      by decide⟩, levelParams_mono⟩

/-- C137, C138: the same recording with the states of `Y` exchanged. -/
def levelData' : Trajectory :=
  ⟨[10, 1, 1, 5, 5], [[1, 0, 1, 0, 0, 1], [1, 1, 0, 0, 1, 0], [1, 1, 0, 0, 1, 0], [0, 1, 1, 1, 1, 1], [1, 0, 0, 1, 0, 0]], 4⟩

theorem levelData_ok' : DataOK sXYZ levelData' := dataOK_of_check _ _ sXYZ_wf rfl rfl (by decide) (by decide) (by decide)

def flipY : Label → Equiv.Perm Nat := fun l => if l = "Y" then Equiv.swap 0 1 else Equiv.refl _

example : SameProcess flipY sXYZ levelData sXYZ levelData' := by
  refine ⟨fun _ => Iff.rfl, fun _ _ => rfl, ?_, rfl, ?_⟩
  · intro l hl v hv x
    rw [uniform_card sXYZ_wf (c := 2) (by decide) hl] at hv
    cases hv
    unfold flipY
    split
    · rw [Equiv.swap_apply_def]
      split_ifs <;> omega
    · rfl
  · simp only [levelData, levelData']
    repeat' constructor
    all_goals decide

/-- C139, C141: `Y` never changes, and is not reported as a parent of `X`. -/
def constData : Trajectory := ⟨[2, 1, 2], [[0, 1, 1, 1], [1, 1, 0, 1], [0, 1, 1, 1]], 3⟩

theorem constData_ok : DataOK sXY constData := dataOK_of_check _ _ sXY_wf rfl rfl (by decide) (by decide) (by decide)

example : ∃ es, ((⟨sXY, 2, constData, independenceTest (ratParams (1 / 2) 2 0)⟩ : CBEnv).ctpcSequential ⟨[], trues 2⟩).1 = .ok es ∧ ("Y", "X") ∉ es := by
  refine ⟨[], ?_, by simp⟩
  rw [eq_ratTest, CBEnv.sequential_eq_F]; decide +kernel

example : ("Y", "X") ∉ ([] : List Edge) :=
  constant_variable_not_reported (E := ⟨sXY, 2, constData, independenceTest (ratParams (1 / 2) 2 0)⟩) (c := 2) (m := trues 2)
    (uniformRun_of sXY_wf constData_ok (by decide) (by norm_num) rfl (by decide))
    (ratParams_sane 0 (by norm_num) (by norm_num)) (by norm_num)
    (by rw [eq_ratTest, CBEnv.sequential_eq_F]; decide +kernel)
    (by change "Y" ∈ sXY.labels; decide) (by change "X" ∈ sXY.labels; decide) (by decide) ⟨1, 0, rfl, rfl, rfl⟩
    (by change NeverChanges sXY constData "Y"; unfold NeverChanges; decide)

/-- C140, C141: with three states and the data-size rule, the same data are too scarce, and `Y` is reported. -/
def sXY3 : Structure := ⟨["X", "Y"], [0, 1], [3, 3], [], 2⟩
theorem sXY3_wf : WFStructure sXY3 := ⟨by decide, rfl, rfl⟩
theorem constData_ok3 : DataOK sXY3 constData := dataOK_of_check _ _ sXY3_wf rfl rfl (by decide) (by decide) (by decide)

example : UniformRun ⟨sXY3, 2, constData, independenceTest (ratParams (1 / 2) 2 1)⟩ (ratParams (1 / 2) 2 1) 3 ∧
    Scarce (ratParams (1 / 2) 2 1) 3 (given sXY3 constData "X" 3 [] (fun _ => 0)).count ((3 - 1) ^ 2 * 3) ∧
    ((⟨sXY3, 2, constData, independenceTest (ratParams (1 / 2) 2 1)⟩ : CBEnv).ctpcSequential ⟨[], trues 2⟩).1 = .ok [("Y", "X"), ("X", "Y")] := by
  refine ⟨uniformRun_of sXY3_wf constData_ok3 (by decide) (by norm_num) rfl (by decide), ⟨by norm_num, ?_⟩, ?_⟩
  · have : (∑ x ∈ Finset.range 3, (given sXY3 constData "X" 3 [] (fun _ => 0)).count x x : ℕ) = 3 := by decide +kernel
    rw [this]
    unfold XR.div
    rw [if_neg (by norm_num)]
    show ((3 : ℕ) : ℝ) / (((3 - 1) ^ 2 * 3 : ℕ) : ℝ) < ((1 : ℚ) : ℝ)
    norm_num
  · rw [eq_ratTest, CBEnv.sequential_eq_F]; decide +kernel

/-- C144: with two variables every outcome of the tests is right about some network. -/
theorem perfect_two {t : Trajectory} {P : IndepParams} (hR : UniformRun ⟨sXY, 2, t, independenceTest P⟩ P 2) :
    PerfectTests ⟨sXY, 2, t, independenceTest P⟩ (fun p child => freshVerdict ⟨sXY, 2, t, independenceTest P⟩ child 2 p [] ≠ .ok .accept) := by
  have hS : ∀ {p child S}, ValidTest ⟨sXY, 2, t, independenceTest P⟩ p child S → S = [] := by
    intro p child S ha
    rw [List.eq_nil_iff_forall_not_mem]
    intro q hq
    have h1 : p = "X" ∨ p = "Y" := by simpa [sXY] using ha.p_mem
    have h2 : child = "X" ∨ child = "Y" := by simpa [sXY] using ha.child_mem
    have h3 : q = "X" ∨ q = "Y" := by simpa [sXY] using ha.S_mem q hq
    have e1 : q ≠ p := fun e => ha.p_notin (e ▸ hq)
    have e2 : q ≠ child := fun e => ha.child_notin (e ▸ hq)
    have e3 := ha.p_ne
    rcases h1 with rfl | rfl <;> rcases h2 with rfl | rfl <;> rcases h3 with rfl | rfl <;> simp_all
  have hc : ∀ {p child S c}, ValidTest ⟨sXY, 2, t, independenceTest P⟩ p child S → sXY.getStatesNumber child = .ok c → c = 2 := by
    intro p child S c ha h
    rw [uniform_card hR.wf hR.cards ha.child_mem] at h
    cases h
    rfl
  refine ⟨fun child c p S hcs ha ht => ?_, fun child c p S hcs ha ht _ => ?_, fun child c p S hcs ha ht => ?_⟩
  · cases hS ha; cases hc ha hcs
    exact .inl ((verdict_two_valued hR (.inl le_rfl) ha).resolve_left ht)
  · cases hS ha; cases hc ha hcs
    exact not_not.1 ht
  · cases hS ha; cases hc ha hcs
    exact verdict_two_valued hR (.inl le_rfl) ha

example : PerfectTests ⟨sXY, 2, unitData, independenceTest (ratParams (1 / 2) 2 0)⟩ (fun p child =>
    freshVerdict ⟨sXY, 2, unitData, independenceTest (ratParams (1 / 2) 2 0)⟩ child 2 p [] ≠ .ok .accept) :=
  perfect_two (uniformRun_of sXY_wf unitData_ok (by decide) (by norm_num) rfl (by decide))

end Demo
end PyCTBN
