import Verif.Props.CtpcLevel
import Verif.Props.RatTest
import Verif.Props.Oracle

/-!
# What constraint-based estimation is sensitive to
-/

namespace PyCTBN
open Spec Indep

/-! ## Significance levels -/

/-- `a` is not larger than `b`, as far as comparisons of floats can tell. -/
def Spec.NotLarger (a b : XR) : Prop := ∀ z : XR, (z.lt a → z.lt b) ∧ (b.lt z → a.lt z)

/-- The quantile functions are monotone between 0 and 1, as quantile functions are (outside scipy returns `NaN`). -/
structure Spec.MonotoneQuantiles (P : IndepParams) : Prop where
  f : ∀ q q' r1 r2, 0 ≤ q → q ≤ q' → q' ≤ 1 → NotLarger (P.fPpf q r1 r2) (P.fPpf q' r1 r2)
  chi : ∀ q q' d, 0 ≤ q → q ≤ q' → q' ≤ 1 → NotLarger (P.chi2Ppf q d) (P.chi2Ppf q' d)

/-- The same parameters with other significance levels. -/
def Spec.withLevels (P : IndepParams) (α β : ℝ) : IndepParams := { P with expTestSign := α, chiTestAlfa := β }

/-- **C142** Lower significance levels never turn an answer "independent" of a complete test into "dependent". -/
theorem lower_levels_accept_more {E E' : CBEnv} {P : IndepParams} {c : Nat} (hR : UniformRun E P c) (hq : MonotoneQuantiles P) {α β : ℝ}
    (hα0 : 0 ≤ α) (hβ0 : 0 ≤ β) (h1 : P.expTestSign ≤ 1) (h2 : P.chiTestAlfa ≤ 1) (hα : α ≤ P.expTestSign) (hβ : β ≤ P.chiTestAlfa) (hR' : UniformRun E' (withLevels P α β) c) (hs : E'.struct = E.struct) (ht : E'.traj = E.traj)
    {p child : Label} {S : List Label} (ha : ValidTest E p child S) (h : freshVerdict E child c p S = .ok .accept) :
    freshVerdict E' child c p S = .ok .accept := by
  rw [complete_test_accepts_iff hR ⟨hR.wf, ha.1, ha.2, ha.3, ha.4, ha.5, ha.6⟩] at h
  rw [complete_test_accepts_iff hR' ⟨hR'.wf, hs ▸ ha.1, hs ▸ ha.2, fun q hq => hs ▸ ha.3 q hq, ha.4, ha.5, ha.6⟩, hs, ht]
  intro a haa
  obtain ⟨k1, k2⟩ := h a haa
  refine ⟨k1, fun k3 => k2 ?_⟩
  obtain ⟨x, hx, hF | ⟨hd, hC⟩⟩ := k3
  · refine ⟨x, hx, .inl ?_⟩
    rcases hF with hF | hF
    · exact .inl ((hq.f _ _ _ _ (by simp only [withLevels] at *; linarith) (by simp only [withLevels] at *; linarith) (by simp only [withLevels] at *; linarith) _).1 hF)
    · exact .inr ((hq.f _ _ _ _ (by simp only [withLevels] at *; linarith) (by simp only [withLevels] at *; linarith) (by simp only [withLevels] at *; linarith) _).2 hF)
  · exact ⟨x, hx, .inr ⟨hd, (hq.chi _ _ _ (by simp only [withLevels] at *; linarith) (by simp only [withLevels] at *; linarith) (by simp only [withLevels] at *; linarith) _).2 hC⟩⟩

/-- What remains of C143: with a single candidate parent, lower significance levels never add the edge. -/
theorem lower_levels_keep_fewer_partial {E E' : CBEnv} {P : IndepParams} {c : Nat} (hR : UniformRun E P c) (hq : MonotoneQuantiles P) {α β : ℝ}
    (hα0 : 0 ≤ α) (hβ0 : 0 ≤ β) (h1 : P.expTestSign ≤ 1) (h2 : P.chiTestAlfa ≤ 1) (hα : α ≤ P.expTestSign) (hβ : β ≤ P.chiTestAlfa) (hR' : UniformRun E' (withLevels P α β) c) (hs : E'.struct = E.struct) (ht : E'.traj = E.traj)
    {m : List (List Bool)} {es es' : List Edge} (h : (E.ctpcSequential ⟨[], m⟩).1 = .ok es) (h' : (E'.ctpcSequential ⟨[], m⟩).1 = .ok es')
    {p child : Label} (hp : p ∈ E.struct.labels) (hc : child ∈ E.struct.labels) (hne : p ≠ child)
    (hall : ∀ q ∈ E.struct.labels, q = p ∨ q = child) (hin : (p, child) ∈ es') : (p, child) ∈ es := by
  by_contra hout
  obtain ⟨hr, c', S, hcs, k1, k2, k3, hv⟩ := dropped_only_on_evidence hR.wf hR.indexes h hp hc hne hout
  rw [uniform_card hR.wf hR.cards hc] at hcs
  cases hcs
  have hS : S = [] := by
    rw [List.eq_nil_iff_forall_not_mem]
    intro q hqS
    rcases hall q (k3 q hqS) with rfl | rfl
    · exact k1 hqS
    · exact k2 hqS
  subst hS
  have hv' := lower_levels_accept_more hR hq hα0 hβ0 h1 h2 hα hβ hR' hs ht ⟨hp, hc, by simp, hne, by simp, by simp⟩ hv
  refine marginally_independent_dropped hR'.wf hR'.indexes h' (hs ▸ hp) (hs ▸ hc) hne ?_ (by rw [hs]; exact uniform_card hR.wf hR.cards hc) hv' hin
  unfold removableEdge at hr ⊢
  rw [hs]
  exact hr

namespace Demo

theorem eq_ratTest {s : Structure} {n : Nat} {t : Trajectory} (lo hi thr : ℚ) :
    (⟨s, n, t, independenceTest (ratParams lo hi thr)⟩ : CBEnv) = ⟨s, n, t, ratTest lo hi thr⟩ := by rw [ratTest_eq]

/-- Two parents that are copies of each other. -/
def copyData : Trajectory :=
  ⟨[9, 9, 9, 9, 1, 1, 1, 1], [[0, 0, 0, 1, 0, 0], [1, 0, 0, 0, 0, 0], [0, 0, 0, 1, 0, 0], [1, 0, 0, 0, 1, 1], [1, 1, 1, 0, 1, 1], [0, 1, 1, 1, 1, 1],
    [1, 1, 1, 0, 1, 1], [0, 1, 1, 0, 0, 0]], 4⟩

def sXYZ : Structure := ⟨["X", "Y", "Z"], [0, 1, 2], [2, 2, 2], [], 3⟩
def sXZY : Structure := ⟨["X", "Z", "Y"], [0, 1, 2], [2, 2, 2], [], 3⟩

def levelData : Trajectory :=
  ⟨[10, 1, 1, 5, 5], [[1, 1, 1, 0, 1, 1], [1, 0, 0, 0, 0, 0], [1, 0, 0, 0, 0, 0], [0, 0, 1, 1, 0, 1], [1, 1, 0, 1, 1, 0]], 4⟩

def unitData : Trajectory := ⟨[1, 1, 3], [[0, 1, 1, 1], [0, 1, 1, 1], [0, 0, 0, 0]], 3⟩
def sXY : Structure := ⟨["X", "Y"], [0, 1], [2, 2], [], 2⟩

def rowsQ (f : ℤ → ℤ) : List (List ℤ) := [[0, f 2, 0, 0, 0, 0, f 2, 0, 0, 1], [1, f 2, 0, 1, 0, 1, f 2, 0, 1, 1], [2, f 2, 0, 2, 0, 2, f 2, 0, 2, 1],
  [1, f 2, 1, 0, 0, 1, f 2, 1, 0, 1], [2, f 2, 1, 1, 0, 2, f 2, 1, 1, 1], [0, f 2, 1, 2, 0, 0, f 2, 1, 2, 1], [2, f 1, 2, 0, 0, 2, f 1, 2, 0, 1],
  [0, f 1, 2, 1, 0, 0, f 1, 2, 1, 1], [1, f 1, 2, 2, 0, 1, f 1, 2, 2, 1]]
/-- `Q` never takes its state 0, or its state 2 when its states are numbered the other way round. -/
def markData (f : ℤ → ℤ) : Trajectory := ⟨[30, 1, 2, 30, 1, 5, 1, 1, 1], rowsQ f, 6⟩
def sMark : Structure := ⟨["P", "Q", "R", "S", "X"], [0, 1, 2, 3, 4], [3, 3, 3, 3, 3], [], 5⟩
def trues (n : Nat) : List (List Bool) := List.replicate n (List.replicate n true)

theorem uniformRun_of {s : Structure} {t : Trajectory} {P : IndepParams} {c n : Nat} (hw : WFStructure s) (hd : DataOK s t) (hv : ∀ v ∈ s.vals, v = c)
    (hc : 0 < c) (hn : n = s.total) (hi : s.indexes.Nodup) : UniformRun ⟨s, n, t, independenceTest P⟩ P c := ⟨rfl, hw, hd, hv, hc, hn, hi⟩

theorem ratParams_sane {lo hi : ℚ} (thr : ℚ) (hlo : lo ≤ 1) (hhi : 1 ≤ hi) : SaneQuantiles (ratParams lo hi thr) where
  zero_dof q r1 r2 h := if_pos h
  around_one r := by
    have q1 : ((1 : ℝ) / 10 / 2 < 1 / 2) := by norm_num
    have q2 : ¬ ((1 : ℝ) - 1 / 10 / 2 < 1 / 2) := by norm_num
    have f1 : (ratParams lo hi thr).fPpf ((ratParams lo hi thr).expTestSign / 2) r r = if (r : ℝ) = 0 ∨ (r : ℝ) = 0 then XR.nan else XR.fin lo := by
      show (if (r : ℝ) = 0 ∨ (r : ℝ) = 0 then XR.nan else if (1 : ℝ) / 10 / 2 < 1 / 2 then XR.fin lo else XR.fin hi) = _
      rw [if_pos q1]
    have f2 : (ratParams lo hi thr).fPpf (1 - (ratParams lo hi thr).expTestSign / 2) r r = if (r : ℝ) = 0 ∨ (r : ℝ) = 0 then XR.nan else XR.fin hi := by
      show (if (r : ℝ) = 0 ∨ (r : ℝ) = 0 then XR.nan else if (1 : ℝ) - 1 / 10 / 2 < 1 / 2 then XR.fin lo else XR.fin hi) = _
      rw [if_neg q2]
    rw [f1, f2]
    split
    · exact ⟨XR.not_lt_nan _, fun h => h⟩
    · have h1 : (lo : ℝ) ≤ 1 := by exact_mod_cast hlo
      have h2 : (1 : ℝ) ≤ hi := by exact_mod_cast hhi
      exact ⟨not_lt.2 h1, not_lt.2 h2⟩
  chi_nonneg d := fun h => h

theorem sXYZ_wf : WFStructure sXYZ := ⟨by decide, rfl, rfl⟩
theorem sXZY_wf : WFStructure sXZY := ⟨by decide, rfl, rfl⟩
theorem sXY_wf : WFStructure sXY := ⟨by decide, rfl, rfl⟩
theorem sMark_wf : WFStructure sMark := ⟨by decide, rfl, rfl⟩
theorem copyData_ok : DataOK sXYZ copyData := dataOK_of_check _ _ sXYZ_wf rfl rfl (by decide) (by decide) (by decide)
theorem copyData_ok' : DataOK sXZY copyData := dataOK_of_check _ _ sXZY_wf rfl rfl (by decide) (by decide) (by decide)
theorem levelData_ok : DataOK sXYZ levelData := dataOK_of_check _ _ sXYZ_wf rfl rfl (by decide) (by decide) (by decide)
theorem unitData_ok : DataOK sXY unitData := dataOK_of_check _ _ sXY_wf rfl rfl (by decide) (by decide) (by decide)
theorem markData_ok : DataOK sMark (markData id) := dataOK_of_check _ _ sMark_wf rfl rfl (by decide) (by decide) (by decide)
theorem markData_ok' : DataOK sMark (markData (2 - ·)) := dataOK_of_check _ _ sMark_wf rfl rfl (by decide) (by decide) (by decide)

open Classical in
/-- Quantiles at two levels: between 1/2 and 2 for `alpha = 0.1`, between 1/4 and 4 for `alpha = 0.01`. -/
noncomputable def levelParams : IndepParams where
  expTestSign := 1 / 10
  chiTestAlfa := 0
  thumbThreshold := (0 : ℚ)
  fPpf q r1 r2 := if r1 = 0 ∨ r2 = 0 then .nan else .fin (if q < 1 / 40 then 1 / 4 else if q < 1 / 2 then 1 / 2 else if q < 39 / 40 then 2 else 4)
  chi2Ppf _ _ := .pinf

theorem levelParams_mono : MonotoneQuantiles levelParams where
  f q q' r1 r2 _ h _ := by
    intro z
    simp only [levelParams]
    by_cases hr : r1 = 0 ∨ r2 = 0
    · rw [if_pos hr, if_pos hr]; exact ⟨fun h => h, fun h => h⟩
    · rw [if_neg hr, if_neg hr]
      have hle : (if q < 1 / 40 then (1 / 4 : ℝ) else if q < 1 / 2 then 1 / 2 else if q < 39 / 40 then 2 else 4) ≤
          (if q' < 1 / 40 then 1 / 4 else if q' < 1 / 2 then 1 / 2 else if q' < 39 / 40 then 2 else 4) := by
        split_ifs <;> linarith
      cases z with
      | nan => exact ⟨fun h => h, fun h => h⟩
      | ninf => exact ⟨fun h => h, fun h => h⟩
      | pinf => exact ⟨fun h => h, fun h => h⟩
      | fin w => exact ⟨fun h => lt_of_lt_of_le h hle, fun h => lt_of_le_of_lt hle h⟩
  chi q q' d _ _ _ z := ⟨fun h => h, fun h => h⟩

theorem independenceTest_congr {P P' : IndepParams} (h1 : ∀ r1 r2, P.fPpf (P.expTestSign / 2) r1 r2 = P'.fPpf (P'.expTestSign / 2) r1 r2)
    (h2 : ∀ r1 r2, P.fPpf (1 - P.expTestSign / 2) r1 r2 = P'.fPpf (1 - P'.expTestSign / 2) r1 r2)
    (h3 : ∀ d, P.chi2Ppf (1 - P.chiTestAlfa) d = P'.chi2Ppf (1 - P'.chiTestAlfa) d) (h4 : P.thumbThreshold = P'.thumbThreshold) :
    independenceTest P = independenceTest P' := by
  funext c a b th
  unfold independenceTest tooScarce
  have hf : fRejects P = fRejects P' := by
    funext c1 c2 r1s r2s val
    unfold fRejects
    cases pyGet (diagonal c2) val with
    | error e => rfl
    | ok d2 =>
      cases pyGet (diagonal c1) val with
      | error e => rfl
      | ok d1 =>
        cases pyGet r1s val with
        | error e => rfl
        | ok r1 =>
          cases pyGet r2s val with
          | error e => rfl
          | ok r2 => exact congrArg Except.ok (decide_eq_decide.2 (by rw [h1, h2]))
  have hc : chiRejects P = chiRejects P' := by
    funext c m1 m2 r1s r2s val
    unfold chiRejects
    cases pyGet r1s val with
    | error e => rfl
    | ok r1 =>
      cases pyGet r2s val with
      | error e => rfl
      | ok r2 =>
        cases pyGet (noDiag m1) val with
        | error e => rfl
        | ok a1 =>
          cases pyGet (noDiag m2) val with
          | error e => rfl
          | ok a2 =>
            refine congrArg Except.ok (decide_eq_decide.2 ?_)
            rw [h3]
  rw [hf, hc, h4]

theorem level_high : independenceTest levelParams = independenceTest (ratParams (1 / 2) 2 0) := by
  apply independenceTest_congr
  · intro r1 r2
    show (if r1 = 0 ∨ r2 = 0 then XR.nan else XR.fin (if (1 : ℝ) / 10 / 2 < 1 / 40 then 1 / 4 else if (1 : ℝ) / 10 / 2 < 1 / 2 then 1 / 2 else
      if (1 : ℝ) / 10 / 2 < 39 / 40 then 2 else 4)) = (if r1 = 0 ∨ r2 = 0 then XR.nan else if (1 : ℝ) / 10 / 2 < 1 / 2 then XR.fin ((1 / 2 : ℚ) : ℝ) else XR.fin ((2 : ℚ) : ℝ))
    norm_num
  · intro r1 r2
    show (if r1 = 0 ∨ r2 = 0 then XR.nan else XR.fin (if (1 : ℝ) - 1 / 10 / 2 < 1 / 40 then 1 / 4 else if (1 : ℝ) - 1 / 10 / 2 < 1 / 2 then 1 / 2 else
      if (1 : ℝ) - 1 / 10 / 2 < 39 / 40 then 2 else 4)) = (if r1 = 0 ∨ r2 = 0 then XR.nan else if (1 : ℝ) - 1 / 10 / 2 < 1 / 2 then XR.fin ((1 / 2 : ℚ) : ℝ) else XR.fin ((2 : ℚ) : ℝ))
    norm_num
  · intro d; rfl
  · rfl

theorem level_low : independenceTest (withLevels levelParams (1 / 100) 0) = independenceTest (ratParams (1 / 4) 4 0) := by
  apply independenceTest_congr
  · intro r1 r2
    show (if r1 = 0 ∨ r2 = 0 then XR.nan else XR.fin (if (1 : ℝ) / 100 / 2 < 1 / 40 then 1 / 4 else if (1 : ℝ) / 100 / 2 < 1 / 2 then 1 / 2 else
      if (1 : ℝ) / 100 / 2 < 39 / 40 then 2 else 4)) = (if r1 = 0 ∨ r2 = 0 then XR.nan else if (1 : ℝ) / 10 / 2 < 1 / 2 then XR.fin ((1 / 4 : ℚ) : ℝ) else XR.fin ((4 : ℚ) : ℝ))
    norm_num
  · intro r1 r2
    show (if r1 = 0 ∨ r2 = 0 then XR.nan else XR.fin (if (1 : ℝ) - 1 / 100 / 2 < 1 / 40 then 1 / 4 else if (1 : ℝ) - 1 / 100 / 2 < 1 / 2 then 1 / 2 else
      if (1 : ℝ) - 1 / 100 / 2 < 39 / 40 then 2 else 4)) = (if r1 = 0 ∨ r2 = 0 then XR.nan else if (1 : ℝ) - 1 / 10 / 2 < 1 / 2 then XR.fin ((1 / 4 : ℚ) : ℝ) else XR.fin ((4 : ℚ) : ℝ))
    norm_num
  · intro d; rfl
  · rfl

/-- Exchange the states 0 and 2 of `Q`. -/
def flipQ : Label → Equiv.Perm Nat := fun l => if l = "Q" then Equiv.swap 0 2 else Equiv.refl _

theorem flipQ_fits : ∀ l ∈ sMark.labels, ∀ v, sMark.getStatesNumber l = .ok v → ∀ x, flipQ l x < v ↔ x < v := by
  intro l hl v hv x
  rw [uniform_card sMark_wf (c := 3) (by decide) hl] at hv
  cases hv
  unfold flipQ
  split
  · rw [Equiv.swap_apply_def]
    split_ifs <;> omega
  · rfl

end Demo

open Demo

/-- C143 is false in general: with two candidate parents, a lower significance level can add an edge. -/
theorem lower_levels_can_add_edges : ∃ (P : IndepParams) (s : Structure) (t : Trajectory) (α : ℝ) (m : List (List Bool)) (es es' : List Edge),
    MonotoneQuantiles P ∧ 0 < α ∧ α < P.expTestSign ∧ P.expTestSign < 1 ∧
    UniformRun ⟨s, s.total, t, independenceTest P⟩ P 2 ∧
    buildRemovable s s.total [] = .ok m ∧
    ((⟨s, s.total, t, independenceTest P⟩ : CBEnv).ctpcSequential ⟨[], m⟩).1 = .ok es ∧
    ((⟨s, s.total, t, independenceTest (withLevels P α P.chiTestAlfa)⟩ : CBEnv).ctpcSequential ⟨[], m⟩).1 = .ok es' ∧
    es = [("Y", "X")] ∧ es' = [("Z", "X")] := by
  refine ⟨levelParams, sXYZ, levelData, 1 / 100, trues 3, _, _, levelParams_mono, by norm_num, by simp only [levelParams]; norm_num,
    by simp only [levelParams]; norm_num, uniformRun_of sXYZ_wf levelData_ok (by decide) (by norm_num) rfl (by decide), by decide +kernel, ?_, ?_, rfl, rfl⟩
  · rw [level_high, eq_ratTest, CBEnv.sequential_eq_F]; decide +kernel
  · rw [show levelParams.chiTestAlfa = 0 from rfl, level_low, eq_ratTest, CBEnv.sequential_eq_F]; decide +kernel

/-- C144 is false: two recordings of the same process that differ only in the order of two variables, different estimates. -/
theorem variable_order_matters : ∃ (P : IndepParams) (s s' : Structure) (t : Trajectory) (m : List (List Bool)),
    SaneQuantiles P ∧ UniformRun ⟨s, s.total, t, independenceTest P⟩ P 2 ∧ UniformRun ⟨s', s'.total, t, independenceTest P⟩ P 2 ∧
    SameProcess (fun _ => Equiv.refl _) s t s' t ∧
    buildRemovable s s.total [] = .ok m ∧ buildRemovable s' s'.total [] = .ok m ∧
    ((⟨s, s.total, t, independenceTest P⟩ : CBEnv).ctpcSequential ⟨[], m⟩).1 = .ok [("Z", "X")] ∧
    ((⟨s', s'.total, t, independenceTest P⟩ : CBEnv).ctpcSequential ⟨[], m⟩).1 = .ok [("Y", "X")] := by
  refine ⟨ratParams (1 / 3) 3 0, sXYZ, sXZY, copyData, trues 3, ratParams_sane 0 (by norm_num) (by norm_num),
    uniformRun_of sXYZ_wf copyData_ok (by decide) (by norm_num) rfl (by decide),
    uniformRun_of sXZY_wf copyData_ok' (by decide) (by norm_num) rfl (by decide),
    ⟨?_, ?_, fun _ _ _ _ _ => Iff.rfl, rfl, ?_⟩, by decide +kernel, by decide +kernel, ?_, ?_⟩
  · intro l; simp [sXYZ, sXZY]; tauto
  · decide
  · rw [List.forall₂_same]
    decide
  · rw [eq_ratTest, CBEnv.sequential_eq_F]; decide +kernel
  · rw [eq_ratTest, CBEnv.sequential_eq_F]; decide +kernel

/-- What remains of C144 (at most two states, or no data-size rule): if the tests are right about a network, then the estimates from both listings have
the same edges. -/
theorem variable_order_immaterial_partial {E E' : CBEnv} {P : IndepParams} {c : Nat} (hR : UniformRun E P c) (hR' : UniformRun E' P c)
    {π : Label → Equiv.Perm Nat} (h : SameProcess π E.struct E.traj E'.struct E'.traj) (hc : c ≤ 2 ∨ P.thumbThreshold ≤ 0)
    (hidx : ∀ i ∈ E.struct.indexes, i < E.struct.total) (hidx' : ∀ i ∈ E'.struct.indexes, i < E'.struct.total)
    {true_edge : Label → Label → Prop} (hO : PerfectTests E true_edge) {known : List Edge} (hk : ∀ e ∈ known, true_edge e.1 e.2)
    {m m' : List (List Bool)} (hm : buildRemovable E.struct E.tot known = .ok m) (hm' : buildRemovable E'.struct E'.tot known = .ok m') :
    ∃ es es', (E.ctpcSequential ⟨[], m⟩).1 = .ok es ∧ (E'.ctpcSequential ⟨[], m'⟩).1 = .ok es' ∧
      ∀ p child, p ∈ E.struct.labels → child ∈ E.struct.labels → p ≠ child → ((p, child) ∈ es ↔ (p, child) ∈ es') := by
  have back : ∀ {child c' p S}, E'.struct.getStatesNumber child = .ok c' → ValidTest E' p child S → ValidTest E p child S ∧ c' = c := by
    intro child c' p S hcs ha
    refine ⟨⟨(h.labels _).1 ha.1, (h.labels _).1 ha.2, fun q hq => (h.labels _).1 (ha.3 q hq), ha.4, ha.5, ha.6⟩, ?_⟩
    rw [uniform_card hR'.wf hR'.cards ha.child_mem] at hcs
    cases hcs
    rfl
  have hcard : ∀ l ∈ E.struct.labels, E.struct.getStatesNumber l = .ok c := fun l hl => uniform_card hR.wf hR.cards hl
  have hO' : PerfectTests E' true_edge := by
    refine ⟨fun child c' p S hcs ha ht => ?_, fun child c' p S hcs ha ht hS => ?_, fun child c' p S hcs ha ht => ?_⟩
    · obtain ⟨ha0, rfl⟩ := back hcs ha
      rcases verdict_two_valued hR' hc ha with h2 | h2
      · have h1 := (complete_test_blind_to_coding hR hR' h ha0).1 h2
        rcases hO.parent _ _ _ _ (hcard _ ha0.child_mem) ha0 ht with h3 | h3 <;> rw [h1] at h3 <;> cases h3
      · exact .inl h2
    · obtain ⟨ha0, rfl⟩ := back hcs ha
      exact (complete_test_blind_to_coding hR hR' h ha0).2
        (hO.separated _ _ _ _ (hcard _ ha0.child_mem) ha0 ht (fun q hq => hS q ((h.labels _).2 hq)))
    · obtain ⟨ha0, rfl⟩ := back hcs ha
      exact verdict_two_valued hR' hc ha
  obtain ⟨es, h1, -, h2⟩ := constraint_based_recovers hR.wf hR.indexes hidx hR.total hO hk hm
  obtain ⟨es', h1', -, h2'⟩ := constraint_based_recovers hR'.wf hR'.indexes hidx' hR'.total hO' hk hm'
  refine ⟨es, es', h1, h1', fun p child hp hc hne => ?_⟩
  rw [h2 p child hp hc hne, h2' p child ((h.labels _).2 hp) ((h.labels _).2 hc) hne]

/-- C145 is false: expressing the same durations in another unit of time changes the estimate. -/
theorem constraint_based_depends_on_unit : ∃ (P : IndepParams) (s : Structure) (t : Trajectory) (k : ℚ) (m : List (List Bool)),
    SaneQuantiles P ∧ 0 < k ∧ UniformRun ⟨s, s.total, t, independenceTest P⟩ P 2 ∧ buildRemovable s s.total [] = .ok m ∧
    ((⟨s, s.total, t, independenceTest P⟩ : CBEnv).ctpcSequential ⟨[], m⟩).1 = .ok [] ∧
    ((⟨s, s.total, rescale k t, independenceTest P⟩ : CBEnv).ctpcSequential ⟨[], m⟩).1 = .ok [("Y", "X")] := by
  refine ⟨ratParams (1 / 2) 2 0, sXY, unitData, 60, trues 2, ratParams_sane 0 (by norm_num) (by norm_num), by norm_num,
    uniformRun_of sXY_wf unitData_ok (by decide) (by norm_num) rfl (by decide), by decide +kernel, ?_, ?_⟩
  · rw [eq_ratTest, CBEnv.sequential_eq_F]; decide +kernel
  · rw [eq_ratTest, CBEnv.sequential_eq_F]; decide +kernel

/-- What remains of C145: the data-size rule and the chi-square part do not depend on the unit of time. -/
theorem counts_time_unit_partial (P : IndepParams) (s : Structure) (t : Trajectory) (k : ℚ) (child : Label) (c : Nat) (K K' : List Label)
    (a : Label → Nat) (th x : Nat) :
    (Scarce P c (given s (rescale k t) child c K a).count th ↔ Scarce P c (given s t child c K a).count th) ∧
    (ChiExceeds P c (given s (rescale k t) child c K a).count (given s (rescale k t) child c K' a).count x ↔
      ChiExceeds P c (given s t child c K a).count (given s t child c K' a).count x) := by
  have : ∀ K, (given s (rescale k t) child c K a).count = (given s t child c K a).count := by
    intro K
    simp only [given, observed, transitions_rescale]
  rw [this, this]
  exact ⟨Iff.rfl, Iff.rfl⟩

/-- C146 is false for variables with three states: the data-size rule makes the estimate depend on how the states of a variable are numbered. -/
theorem numbering_matters_with_data_size_rule : ∃ (P : IndepParams) (s : Structure) (t t' : Trajectory) (π : Label → Equiv.Perm Nat)
    (m : List (List Bool)) (es es' : List Edge),
    SaneQuantiles P ∧ UniformRun ⟨s, s.total, t, independenceTest P⟩ P 3 ∧ UniformRun ⟨s, s.total, t', independenceTest P⟩ P 3 ∧
    SameProcess π s t s t' ∧ buildRemovable s s.total [] = .ok m ∧
    ((⟨s, s.total, t, independenceTest P⟩ : CBEnv).ctpcSequential ⟨[], m⟩).1 = .ok es ∧
    ((⟨s, s.total, t', independenceTest P⟩ : CBEnv).ctpcSequential ⟨[], m⟩).1 = .ok es' ∧ ("P", "X") ∈ es ∧ ("P", "X") ∉ es' := by
  refine ⟨ratParams (1 / 2) 2 (1 / 1000), sMark, markData id, markData (2 - ·), flipQ, trues 5,
    [("Q", "P"), ("R", "P"), ("S", "P"), ("X", "P"), ("P", "Q"), ("R", "Q"), ("S", "Q"), ("X", "Q"), ("P", "R"), ("Q", "R"), ("S", "R"), ("X", "R"),
     ("P", "S"), ("Q", "S"), ("R", "S"), ("X", "S"), ("P", "X"), ("S", "X")],
    [("Q", "P"), ("R", "P"), ("S", "P"), ("X", "P"), ("P", "Q"), ("R", "Q"), ("S", "Q"), ("X", "Q"), ("P", "R"), ("Q", "R"), ("S", "R"), ("X", "R"),
     ("P", "S"), ("Q", "S"), ("R", "S"), ("X", "S"), ("R", "X"), ("S", "X")], ratParams_sane _ (by norm_num) (by norm_num),
    uniformRun_of sMark_wf markData_ok (by decide) (by norm_num) rfl (by decide),
    uniformRun_of sMark_wf markData_ok' (by decide) (by norm_num) rfl (by decide),
    ⟨fun _ => Iff.rfl, fun _ _ => rfl, flipQ_fits, rfl, ?_⟩, by decide +kernel, ?_, ?_, by decide, by decide⟩
  · simp only [markData, rowsQ]
    repeat' constructor
    all_goals decide
  · rw [eq_ratTest, CBEnv.sequential_eq_F]; decide +kernel
  · rw [eq_ratTest, CBEnv.sequential_eq_F]; decide +kernel

end PyCTBN
