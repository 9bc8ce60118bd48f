import Verif.Model.Params
import Mathlib.Analysis.SpecialFunctions.Gamma.Basic

/-!
# Model of `PyCTBN/PyCTBN/estimators/fam_score_calculator.py`

Floating-point arithmetic is replaced by exact real arithmetic; `math.log` raises `ValueError` outside its domain;
`scipy.special.loggamma` is `log ∘ Γ`, which is what it is for positive arguments (the only ones that occur when the
hyper-parameters are positive).
-/

namespace PyCTBN
namespace FamScore

/-- `math.log`. -/
noncomputable def mathLog (x : ℝ) : Py ℝ := if 0 < x then .ok (Real.log x) else .error .valueError

/-- `scipy.special.loggamma` on positive reals. -/
noncomputable def loggamma (x : ℝ) : ℝ := Real.log (Real.Gamma x)

/-- `cim.state_transition_matrix[i, j]`. -/
def entry (c : Cim) (i j : Nat) : Py Nat := do
  let row ← pyGet c.trans i
  pyGet row j

/-- `single_internal_cim_xxu_marginal_likelihood_theta`, lines 128-141. -/
noncomputable def internalTheta (mxxu : Nat) (alphaXxu : ℝ) : ℝ :=
  loggamma (alphaXxu + mxxu) - loggamma alphaXxu

/-- `single_cim_xu_marginal_likelihood_theta`, lines 92-125. -/
noncomputable def singleTheta (index : Nat) (c : Cim) (alphaXu alphaXxu : ℝ) : Py ℝ := do
  let values ← pyRemove (List.range c.resTimes.length) index
  let mxu ← entry c index index
  let terms ← values.mapM (fun j => do
    let m ← entry c index j
    return internalTheta m alphaXxu)
  return (loggamma alphaXu - loggamma (alphaXu + mxu)) + terms.sum

/-- `variable_cim_xu_marginal_likelihood_theta`, lines 62-90. -/
noncomputable def variableTheta (c : Cim) (alphaXu alphaXxu : ℝ) : Py ℝ := do
  let terms ← (List.range c.resTimes.length).mapM (fun i => singleTheta i c alphaXu alphaXxu)
  return terms.sum

/-- `marginal_likelihood_theta`, lines 39-60. -/
noncomputable def marginalTheta (cims : List Cim) (alphaXu alphaXxu : ℝ) : Py ℝ := do
  let terms ← cims.mapM (fun c => variableTheta c alphaXu alphaXxu)
  return terms.sum

/-- `single_cim_xu_marginal_likelihood_q`, lines 200-235. -/
noncomputable def singleQ (mxu : Nat) (txu : ℚ) (tauXu alphaXu : ℝ) : Py ℝ := do
  let l1 ← mathLog tauXu
  let l2 ← mathLog (tauXu + (txu : ℝ))
  return (loggamma (alphaXu + mxu + 1) + l1 * (alphaXu + 1)) - (loggamma (alphaXu + 1) + l2 * (alphaXu + mxu + 1))

/-- `variable_cim_xu_marginal_likelihood_q`, lines 168-197. -/
noncomputable def variableQ (c : Cim) (tauXu alphaXu : ℝ) : Py ℝ := do
  let terms ← (List.range c.resTimes.length).mapM (fun i => do
    let m ← entry c i i
    let t ← pyGet c.resTimes i
    singleQ m t tauXu alphaXu)
  return terms.sum

/-- `marginal_likelihood_q`, lines 147-166. -/
noncomputable def marginalQ (cims : List Cim) (tauXu alphaXu : ℝ) : Py ℝ := do
  let terms ← cims.mapM (fun c => variableQ c tauXu alphaXu)
  return terms.sum

/-- `get_fam_score`, lines 239-267. -/
noncomputable def getFamScore (cims : List Cim) (tauXu alphaXu : ℝ) : Py ℝ := do
  let first ← pyGet cims 0
  if first.resTimes.length = 1 then .error .zeroDivisionError else do
  let alphaXxu := alphaXu / ((first.resTimes.length : ℝ) - 1)
  let q ← marginalQ cims tauXu alphaXu
  let th ← marginalTheta cims alphaXu alphaXxu
  return q + th

end FamScore
end PyCTBN
