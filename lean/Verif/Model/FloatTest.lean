import Verif.Model.Indep

/-!
# `independence_test` in floating point (structure_constraint_based_estimator.py lines 131-172)

As `Model/Indep.lean`, but the finite result of every arithmetic operation and of `np.sqrt` is rounded by `f`.  Simplifications: transition counts are exact
(they are `int64`, and exact as `float64` below `2⁵³`); `np.sum` adds from left to right; no overflow or underflow; the quantile functions of
scipy are the arbitrary functions of `IndepParams` (the rounding of their argument `1 - α/2` is thought of as part of them).
-/

namespace PyCTBN

namespace XR

/-- Rounding of a float result: infinities and NaN stay. -/
def rnd (f : ℝ → ℝ) : XR → XR
  | fin r => fin (f r)
  | nan => nan
  | pinf => pinf
  | ninf => ninf

/-- `np.sum` of a float array, from left to right. -/
noncomputable def sumF (f : ℝ → ℝ) (l : List XR) : XR := l.foldl (fun s x => (s.add x).rnd f) (fin 0)

end XR

namespace Indep

open Classical in
/-- Line 152 in floating point. -/
noncomputable def tooScarceF (f : ℝ → ℝ) (P : IndepParams) (c : Nat) (m1 : List (List Nat)) (thumb : Nat) : Bool :=
  decide (2 < c ∧ XR.lt ((XR.div ((diagonal m1).sum : ℕ) (thumb : ℝ)).rnd f) (.fin P.thumbThreshold))

open Classical in
/-- Lines 155-160 in floating point. -/
noncomputable def fRejectsF (f : ℝ → ℝ) (P : IndepParams) (c1 c2 : List (List ℚ)) (r1s r2s : List Nat) (val : Nat) : Py Bool := do
  let d2 ← pyGet (diagonal c2) val
  let d1 ← pyGet (diagonal c1) val
  let r1 ← pyGet r1s val
  let r2 ← pyGet r2s val
  let q := (XR.div (d2 : ℝ) (d1 : ℝ)).rnd f
  return decide (q.lt (P.fPpf (P.expTestSign / 2) r1 r2) ∨ (P.fPpf (1 - P.expTestSign / 2) r1 r2).lt q)

/-- One summand of lines 168-169 in floating point, `k` and `l` being `Ks[val]` and `Ls[val]`. -/
noncomputable def chiTermF (f : ℝ → ℝ) (k l : XR) (a b : ℝ) : XR :=
  (((((((k.mulFin b).rnd f).add ((l.mulFin a).rnd f).neg).rnd f).sq).rnd f).divFin (a + b)).rnd f

/-- Lines 165-169 in floating point. -/
noncomputable def chiF (f : ℝ → ℝ) (r1 r2 : Nat) (row1 row2 : List Nat) : XR :=
  let k := (((XR.div (r1 : ℝ) (r2 : ℝ)).rnd f).sqrt).rnd f
  let l := (((XR.div (r2 : ℝ) (r1 : ℝ)).rnd f).sqrt).rnd f
  XR.sumF f (List.zipWith (fun (a b : Nat) => chiTermF f k l a b) row1 row2)

open Classical in
/-- Lines 167-171 in floating point. -/
noncomputable def chiRejectsF (f : ℝ → ℝ) (P : IndepParams) (c : Nat) (m1 m2 : List (List Nat)) (r1s r2s : List Nat) (val : Nat) :
    Py Bool := do
  let r1 ← pyGet r1s val
  let r2 ← pyGet r2s val
  let row1 ← pyGet (noDiag m1) val
  let row2 ← pyGet (noDiag m2) val
  return decide ((P.chi2Ppf (1 - P.chiTestAlfa) ((c : ℝ) - 1)).lt (chiF f r1 r2 row1 row2))

/-- `independence_test` in floating point, lines 131-172. -/
noncomputable def independenceTestF (f : ℝ → ℝ) (P : IndepParams) (c : Nat) (cim1 cim2 : Cim) (thumb : Nat) : Py Verdict := do
  let r1s := diagonal cim1.trans
  let r2s := diagonal cim2.trans
  if tooScarceF f P c cim1.trans thumb then return .rejectMark
  if ← anyRound (fRejectsF f P cim1.cim cim2.cim r1s r2s) (List.range c) then return .reject
  if ← anyRound (chiRejectsF f P c cim1.trans cim2.trans r1s r2s) (List.range c) then return .reject
  return .accept

end Indep
end PyCTBN
