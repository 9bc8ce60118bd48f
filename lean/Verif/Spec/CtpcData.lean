import Verif.Spec.Ctpc
import Verif.Spec.Indep
import Verif.Spec.ScoreEst

/-!
# Specification vocabulary: complete tests in terms of the data
-/

namespace PyCTBN.Spec

/-- The entries of the CIM estimated from given statistics (C24): a count, negated on the diagonal, plus 1, over the time plus 1. -/
def Stats.intensity (o : Stats) (x y : Nat) : ℚ := ((if x = y then -(o.count x y : ℚ) else (o.count x y : ℚ)) + 1) / (o.time x + 1)

/-- The F test or the chi-square test tells the two samples apart at some state. -/
def ToldApart (P : IndepParams) (c : Nat) (o1 o2 : Stats) : Prop :=
  ∃ x, x < c ∧ (FOutside P o1.count o2.count o1.intensity o2.intensity x ∨ ChiExceeds P c o1.count o2.count x)

/-- What is observed of `child` while the variables `K` are in the states given by `a`. -/
def given (s : Structure) (t : Trajectory) (child : Label) (c : Nat) (K : List Label) (a : Label → Nat) : Stats :=
  observed s t child (ordered s K) c ((ordered s K).map a)

/-- Constraint-based estimation with the library's own tests, on data in which every variable has `c` states. -/
structure UniformRun (E : CBEnv) (P : IndepParams) (c : Nat) : Prop where
  test : E.twoCim = Indep.independenceTest P
  wf : WFStructure E.struct
  data : DataOK E.struct E.traj
  cards : ∀ v ∈ E.struct.vals, v = c
  pos : 0 < c
  total : E.tot = E.struct.total
  indexes : E.struct.indexes.Nodup

end PyCTBN.Spec
