import Verif.Props.CtpcDemo
import Verif.Model.Indep

/-!
# The library's own two-CIM test with rational quantiles, in a form that can be run

Used by counterexamples: they run the modelled code itself, `independenceTest`, for quantile functions with rational values.
-/

namespace PyCTBN
open Indep

namespace Demo

open Classical in
/-- Quantiles that are `NaN` for zero degrees of freedom (as scipy's are) and otherwise `lo` and `hi`; `chi_test_alfa = 0`, whose chi-square
quantile is infinite. -/
noncomputable def ratParams (lo hi thr : ℚ) : IndepParams where
  expTestSign := 1 / 10
  chiTestAlfa := 0
  thumbThreshold := thr
  fPpf q r1 r2 := if r1 = 0 ∨ r2 = 0 then .nan else if q < 1 / 2 then .fin lo else .fin hi
  chi2Ppf _ _ := .pinf

def ratF (lo hi : ℚ) (c1 c2 : List (List ℚ)) (r1s r2s : List Nat) (val : Nat) : Py Bool := do
  let d2 ← pyGet (diagonal c2) val
  let d1 ← pyGet (diagonal c1) val
  let r1 ← pyGet r1s val
  let r2 ← pyGet r2s val
  return decide (r1 ≠ 0 ∧ r2 ≠ 0 ∧ (if d1 = 0 then d2 ≠ 0 else d2 / d1 < lo ∨ hi < d2 / d1))

def ratChi (m1 m2 : List (List Nat)) (r1s r2s : List Nat) (val : Nat) : Py Bool := do
  let _ ← pyGet r1s val
  let _ ← pyGet r2s val
  let _ ← pyGet (noDiag m1) val
  let _ ← pyGet (noDiag m2) val
  return false

def ratTest (lo hi thr : ℚ) (c : Nat) (cim1 cim2 : Cim) (thumb : Nat) : Py Verdict := do
  let r1s := diagonal cim1.trans
  let r2s := diagonal cim2.trans
  if decide (2 < c ∧ thumb ≠ 0 ∧ (((diagonal cim1.trans).sum : ℕ) : ℚ) / (thumb : ℚ) < thr) then return .rejectMark
  if ← anyRound (ratF lo hi cim1.cim cim2.cim r1s r2s) (List.range c) then return .reject
  if ← anyRound (ratChi cim1.trans cim2.trans r1s r2s) (List.range c) then return .reject
  return .accept

theorem ratF_eq (lo hi thr : ℚ) (c1 c2 : List (List ℚ)) (r1s r2s : List Nat) :
    fRejects (ratParams lo hi thr) c1 c2 r1s r2s = ratF lo hi c1 c2 r1s r2s := by
  funext val
  unfold fRejects ratF
  cases pyGet (diagonal c2) val with
  | error e => rfl
  | ok d2 =>
    cases pyGet (diagonal c1) val with
    | error e => rfl
    | ok d1 =>
      cases pyGet r1s val with
      | error e => rfl
      | ok r1 =>
        cases pyGet r2s val with
        | error e => rfl
        | ok r2 =>
          refine congrArg Except.ok (decide_eq_decide.2 ?_)
          have q1 : ((1 : ℝ) / 10 / 2 < 1 / 2) := by norm_num
          have q2 : ¬ ((1 : ℝ) - 1 / 10 / 2 < 1 / 2) := by norm_num
          have f1 : (ratParams lo hi thr).fPpf ((ratParams lo hi thr).expTestSign / 2) r1 r2 =
              if (r1 : ℝ) = 0 ∨ (r2 : ℝ) = 0 then XR.nan else XR.fin lo := by
            show (if (r1 : ℝ) = 0 ∨ (r2 : ℝ) = 0 then XR.nan else if (1 : ℝ) / 10 / 2 < 1 / 2 then XR.fin lo else XR.fin hi) = _
            rw [if_pos q1]
          have f2 : (ratParams lo hi thr).fPpf (1 - (ratParams lo hi thr).expTestSign / 2) r1 r2 =
              if (r1 : ℝ) = 0 ∨ (r2 : ℝ) = 0 then XR.nan else XR.fin hi := by
            show (if (r1 : ℝ) = 0 ∨ (r2 : ℝ) = 0 then XR.nan else if (1 : ℝ) - 1 / 10 / 2 < 1 / 2 then XR.fin lo else XR.fin hi) = _
            rw [if_neg q2]
          rw [f1, f2]
          by_cases hr : (r1 : ℝ) = 0 ∨ (r2 : ℝ) = 0
          · have hr' : r1 = 0 ∨ r2 = 0 := by exact_mod_cast hr
            simp only [if_pos hr]
            constructor
            · rintro (h | h)
              · cases hx : XR.div (d2 : ℝ) (d1 : ℝ) <;> rw [hx] at h <;> exact absurd h (by simp [XR.lt])
              · exact absurd h (by simp [XR.lt])
            · rintro ⟨h1, h2, -⟩; rcases hr' with h | h <;> contradiction
          · have hr' : r1 ≠ 0 ∧ r2 ≠ 0 := by
              constructor
              · intro h; exact hr (.inl (by exact_mod_cast h))
              · intro h; exact hr (.inr (by exact_mod_cast h))
            simp only [if_neg hr, hr'.1, hr'.2, ne_eq, not_false_eq_true, true_and]
            unfold XR.div
            by_cases hd : d1 = 0
            · subst hd
              rw [if_pos (by norm_num), if_pos rfl]
              unfold XR.infOf
              rcases lt_trichotomy d2 0 with h | h | h
              · have h' : (d2 : ℝ) < 0 := by exact_mod_cast h
                rw [if_neg (not_lt.2 h'.le), if_pos h']
                simp [XR.lt, h.ne]
              · subst h
                norm_num
                simp [XR.lt]
              · have h' : (0 : ℝ) < d2 := by exact_mod_cast h
                rw [if_pos h']
                simp [XR.lt, h.ne']
            · rw [if_neg (by exact_mod_cast hd), if_neg hd]
              simp only [XR.lt]
              have : ((d2 : ℝ) / d1) = ((d2 / d1 : ℚ) : ℝ) := by push_cast; rfl
              rw [this]
              norm_cast

theorem ratChi_eq (lo hi thr : ℚ) (c : Nat) (m1 m2 : List (List Nat)) (r1s r2s : List Nat) :
    chiRejects (ratParams lo hi thr) c m1 m2 r1s r2s = ratChi m1 m2 r1s r2s := by
  funext val
  unfold chiRejects ratChi
  cases pyGet r1s val with
  | error e => rfl
  | ok r1 =>
    cases pyGet r2s val with
    | error e => rfl
    | ok r2 =>
      cases pyGet (noDiag m1) val with
      | error e => rfl
      | ok a =>
        cases pyGet (noDiag m2) val with
        | error e => rfl
        | ok b =>
          refine congrArg Except.ok (decide_eq_false_iff_not.2 ?_)
          show ¬ XR.pinf.lt (chi r1 r2 a b)
          cases chi r1 r2 a b <;> simp [XR.lt]

/-- The library's test with these parameters can be run. -/
theorem ratTest_eq (lo hi thr : ℚ) : independenceTest (ratParams lo hi thr) = ratTest lo hi thr := by
  funext c cim1 cim2 thumb
  unfold independenceTest ratTest
  dsimp only
  rw [ratF_eq, ratChi_eq]
  have : tooScarce (ratParams lo hi thr) c cim1.trans thumb =
      decide (2 < c ∧ thumb ≠ 0 ∧ (((diagonal cim1.trans).sum : ℕ) : ℚ) / (thumb : ℚ) < thr) := by
    unfold tooScarce
    rw [decide_eq_decide]
    refine and_congr_right (fun _ => ?_)
    unfold XR.div
    by_cases ht : thumb = 0
    · subst ht
      rw [if_pos (by norm_num)]
      unfold XR.infOf
      have h0 : ¬ (((diagonal cim1.trans).sum : ℕ) : ℝ) < 0 := not_lt.2 (by positivity)
      rw [if_neg h0]
      split <;> simp [XR.lt]
    · rw [if_neg (by exact_mod_cast ht)]
      simp only [XR.lt, ne_eq, ht, not_false_eq_true, true_and, ratParams]
      generalize (diagonal cim1.trans).sum = k
      have : ((k : ℝ) / (thumb : ℝ)) = (((k : ℚ) / (thumb : ℚ) : ℚ) : ℝ) := by push_cast; rfl
      rw [this]
      norm_cast
  rw [this]

end Demo
end PyCTBN
