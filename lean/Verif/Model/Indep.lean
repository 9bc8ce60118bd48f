import Verif.Model.Params
import Verif.Model.Ctpc
import Mathlib.Data.Real.Sqrt
import Mathlib.Algebra.BigOperators.Group.List.Basic

/-!
# Model of `independence_test` (structure_constraint_based_estimator.py lines 131-172)

Floating-point numbers are extended reals with `NaN`: exact real arithmetic on finite values (rounding and overflow are not
modelled), IEEE rules for infinities and `NaN`.
-/

namespace PyCTBN

/-- A float without rounding. -/
inductive XR where
  | nan | ninf | fin (r : ℝ) | pinf

namespace XR

/-- IEEE `a < b`: false as soon as one side is `NaN`. -/
def lt : XR → XR → Prop
  | nan, _ => False
  | _, nan => False
  | ninf, ninf => False
  | ninf, _ => True
  | fin _, ninf => False
  | fin a, fin b => a < b
  | fin _, pinf => True
  | pinf, _ => False

/-- Sign-dependent infinity. -/
noncomputable def infOf (r : ℝ) : XR := if 0 < r then pinf else if r < 0 then ninf else nan

/-- IEEE division of finite numbers (the zeros that occur as divisors in the modelled code are positive zeros). -/
noncomputable def div (a b : ℝ) : XR := if b = 0 then infOf a else fin (a / b)

/-- `np.sqrt` (of a negative number: `NaN`). -/
noncomputable def sqrt : XR → XR
  | nan => nan
  | ninf => nan
  | fin r => if r < 0 then nan else fin (Real.sqrt r)
  | pinf => pinf

/-- Multiplication by a finite number. -/
noncomputable def mulFin : XR → ℝ → XR
  | nan, _ => nan
  | fin a, b => fin (a * b)
  | pinf, b => infOf b
  | ninf, b => infOf (-b)

/-- IEEE addition. -/
noncomputable def add : XR → XR → XR
  | nan, _ => nan
  | _, nan => nan
  | pinf, ninf => nan
  | ninf, pinf => nan
  | pinf, _ => pinf
  | _, pinf => pinf
  | ninf, _ => ninf
  | _, ninf => ninf
  | fin a, fin b => fin (a + b)

/-- Negation. -/
noncomputable def neg : XR → XR
  | nan => nan
  | pinf => ninf
  | ninf => pinf
  | fin a => fin (-a)

/-- `np.power(x, 2)`. -/
noncomputable def sq : XR → XR
  | nan => nan
  | pinf => pinf
  | ninf => pinf
  | fin a => fin (a ^ 2)

/-- Division by a non-negative finite number. -/
noncomputable def divFin : XR → ℝ → XR
  | nan, _ => nan
  | pinf, _ => pinf
  | ninf, _ => ninf
  | fin a, b => div a b

/-- `np.sum`. -/
noncomputable def sum (l : List XR) : XR := l.foldr add (fin 0)

end XR

/-- The parameters of the estimator (structure_constraint_based_estimator.py lines 45-61) and the two quantile functions it
takes from scipy, `f_dist.ppf(q, dfn, dfd)` and `chi2_dist.ppf(q, df)`, about which nothing is assumed (they may return
`NaN`, as scipy does for zero degrees of freedom). -/
structure IndepParams where
  expTestSign : ℝ
  chiTestAlfa : ℝ
  thumbThreshold : ℝ
  fPpf : ℝ → ℝ → ℝ → XR
  chi2Ppf : ℝ → ℝ → XR

namespace Indep

/-- `M.diagonal()`. -/
def diagonal {α : Type} (m : List (List α)) : List α := (m.zipIdx.map (fun (r, i) => r[i]?)).reduceOption

/-- `M[~np.eye(n)].reshape(n, -1)`: every row without its diagonal entry. -/
def noDiag {α : Type} (m : List (List α)) : List (List α) := m.zipIdx.map (fun (r, i) => r.eraseIdx i)

open Classical in
/-- The data-size rule, lines 152: `np.sum(np.diagonal(M1)) / thumb_value < thumb_threshold`. -/
noncomputable def tooScarce (P : IndepParams) (c : Nat) (m1 : List (List Nat)) (thumb : Nat) : Bool :=
  decide (2 < c ∧ XR.lt (XR.div ((diagonal m1).sum : ℕ) (thumb : ℝ)) (.fin P.thumbThreshold))

open Classical in
/-- One round of the F test, lines 157-160; `true` means "leave with `False`". -/
noncomputable def fRejects (P : IndepParams) (c1 c2 : List (List ℚ)) (r1s r2s : List Nat) (val : Nat) : Py Bool := do
  let d2 ← pyGet (diagonal c2) val
  let d1 ← pyGet (diagonal c1) val
  let r1 ← pyGet r1s val
  let r2 ← pyGet r2s val
  let f := XR.div (d2 : ℝ) (d1 : ℝ)
  return decide (f.lt (P.fPpf (P.expTestSign / 2) r1 r2) ∨ (P.fPpf (1 - P.expTestSign / 2) r1 r2).lt f)

/-- The statistic of lines 168-169 for one state. -/
noncomputable def chi (r1 r2 : Nat) (row1 row2 : List Nat) : XR :=
  let k := (XR.div (r1 : ℝ) (r2 : ℝ)).sqrt
  let l := (XR.div (r2 : ℝ) (r1 : ℝ)).sqrt
  XR.sum (List.zipWith (fun (a b : Nat) =>
    (((k.mulFin (b : ℝ)).add (l.mulFin (a : ℝ)).neg).sq).divFin ((a : ℝ) + (b : ℝ))) row1 row2)

open Classical in
/-- One round of the chi-square test, lines 167-171. -/
noncomputable def chiRejects (P : IndepParams) (c : Nat) (m1 m2 : List (List Nat)) (r1s r2s : List Nat) (val : Nat) :
    Py Bool := do
  let r1 ← pyGet r1s val
  let r2 ← pyGet r2s val
  let row1 ← pyGet (noDiag m1) val
  let row2 ← pyGet (noDiag m2) val
  return decide ((P.chi2Ppf (1 - P.chiTestAlfa) ((c : ℝ) - 1)).lt (chi r1 r2 row1 row2))

/-- `for val in range(0, child_states_numb)`: does some round reject? -/
def anyRound (f : Nat → Py Bool) : List Nat → Py Bool
  | [] => .ok false
  | v :: vs => do
    if ← f v then return true else anyRound f vs

/-- `independence_test`, lines 131-172 (with the freezing of line 153 as part of the verdict).
(Simplification: the divisor `thumb_value` is a natural number; numpy's element-wise arithmetic is evaluated only at the
entries that are compared.) -/
noncomputable def independenceTest (P : IndepParams) (c : Nat) (cim1 cim2 : Cim) (thumb : Nat) : Py Verdict := do
  let r1s := diagonal cim1.trans
  let r2s := diagonal cim2.trans
  if tooScarce P c cim1.trans thumb then return .rejectMark
  if ← anyRound (fRejects P cim1.cim cim2.cim r1s r2s) (List.range c) then return .reject
  if ← anyRound (chiRejects P c cim1.trans cim2.trans r1s r2s) (List.range c) then return .reject
  return .accept

end Indep
end PyCTBN
