import Verif.Model.FamScore
import Verif.Model.Float
import Verif.Model.ScoreEst

/-!
# Model of `PyCTBN/PyCTBN/estimators/fam_score_calculator.py` in floating point

Every arithmetic operation is followed by a rounding; `math.log` and `scipy.special.loggamma` are arbitrary functions (what is assumed of their accuracy is in
`Spec/FloatScore.lean`).  `np.sum` adds in the order of the list (numpy adds lists of fewer than eight numbers so, longer ones in blocks).
-/

namespace PyCTBN

/-- The floating-point environment of the score: rounding, `math.log`, `scipy.special.loggamma`. -/
structure FloatMath where
  rnd : ℝ → ℝ
  log : ℝ → ℝ
  lgamma : ℝ → ℝ

namespace FloatMath
variable (F : FloatMath)

/-- `np.sum` of a list of floats. -/
noncomputable def sum (ws : List ℝ) : ℝ := ws.foldl (fun a w => F.rnd (a + w)) 0

/-- `math.log`: `ValueError` outside its domain. -/
noncomputable def mathLog (x : ℝ) : Py ℝ := if 0 < x then .ok (F.log x) else .error .valueError

/-- `single_internal_cim_xxu_marginal_likelihood_theta`, lines 128-141. -/
noncomputable def internalTheta (mxxu : Nat) (alphaXxu : ℝ) : ℝ :=
  F.rnd (F.lgamma (F.rnd (alphaXxu + mxxu)) - F.lgamma alphaXxu)

/-- `single_cim_xu_marginal_likelihood_theta`, lines 92-125. -/
noncomputable def singleTheta (index : Nat) (c : Cim) (alphaXu alphaXxu : ℝ) : Py ℝ := do
  let values ← pyRemove (List.range c.resTimes.length) index
  let mxu ← FamScore.entry c index index
  let terms ← values.mapM (fun j => do
    let m ← FamScore.entry c index j
    return F.internalTheta m alphaXxu)
  return F.rnd (F.rnd (F.lgamma alphaXu - F.lgamma (F.rnd (alphaXu + mxu))) + F.sum terms)

/-- `variable_cim_xu_marginal_likelihood_theta`, lines 62-90. -/
noncomputable def variableTheta (c : Cim) (alphaXu alphaXxu : ℝ) : Py ℝ := do
  let terms ← (List.range c.resTimes.length).mapM (fun i => F.singleTheta i c alphaXu alphaXxu)
  return F.sum terms

/-- `marginal_likelihood_theta`, lines 39-60. -/
noncomputable def marginalTheta (cims : List Cim) (alphaXu alphaXxu : ℝ) : Py ℝ := do
  let terms ← cims.mapM (fun c => F.variableTheta c alphaXu alphaXxu)
  return F.sum terms

/-- `single_cim_xu_marginal_likelihood_q`, lines 200-235. -/
noncomputable def singleQ (mxu : Nat) (txu : ℚ) (tauXu alphaXu : ℝ) : Py ℝ := do
  let l1 ← F.mathLog tauXu
  let l2 ← F.mathLog (F.rnd (tauXu + (txu : ℝ)))
  return F.rnd (F.rnd (F.lgamma (F.rnd (F.rnd (alphaXu + mxu) + 1)) + F.rnd (l1 * F.rnd (alphaXu + 1))) -
    F.rnd (F.lgamma (F.rnd (alphaXu + 1)) + F.rnd (l2 * F.rnd (F.rnd (alphaXu + mxu) + 1))))

/-- `variable_cim_xu_marginal_likelihood_q`, lines 168-197. -/
noncomputable def variableQ (c : Cim) (tauXu alphaXu : ℝ) : Py ℝ := do
  let terms ← (List.range c.resTimes.length).mapM (fun i => do
    let m ← FamScore.entry c i i
    let t ← pyGet c.resTimes i
    F.singleQ m t tauXu alphaXu)
  return F.sum terms

/-- `marginal_likelihood_q`, lines 147-166. -/
noncomputable def marginalQ (cims : List Cim) (tauXu alphaXu : ℝ) : Py ℝ := do
  let terms ← cims.mapM (fun c => F.variableQ c tauXu alphaXu)
  return F.sum terms

/-- `get_fam_score`, lines 239-267. -/
noncomputable def getFamScore (cims : List Cim) (tauXu alphaXu : ℝ) : Py ℝ := do
  let first ← pyGet cims 0
  if first.resTimes.length = 1 then .error .zeroDivisionError else do
  let alphaXxu := F.rnd (alphaXu / ((first.resTimes.length : ℝ) - 1))
  let q ← F.marginalQ cims tauXu alphaXu
  let th ← F.marginalTheta cims alphaXu alphaXxu
  return F.rnd (q + th)

/-- The score of a node on an initialised graph, structure_score_based_estimator.py lines 233-245: the statistics computed in floating point with the
rounding `rnd` on rational numbers (numpy), the score with `F`. -/
noncomputable def famScoreOn (rnd : ℚ → ℚ) (t : Trajectory) (tau alpha : ℝ) (n : Label) (g : NetworkGraph) : Py ℝ := do
  let e ← (ParamsEst.new t g).fastInit n
  let (_, s) ← e.computeParametersF rnd n
  F.getFamScore s.cims tau alpha

end FloatMath
end PyCTBN
