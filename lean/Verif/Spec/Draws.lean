import Mathlib.Probability.Independence.Basic
import Mathlib.MeasureTheory.Measure.Real

/-!
# Specification vocabulary: random choices

`random.choice(l)` for a list of `N` elements chooses each of them with probability `1/N`, independently of all other choices.  In the model a choice is a number
`X`, and the element chosen is that at position `X % N`.
-/

namespace PyCTBN.Spec
open MeasureTheory ProbabilityTheory

/-- The choices `X 0`, `X 1`, … among `N` elements are independent and uniform. -/
structure UniformChoices {Ω : Type*} [MeasurableSpace Ω] (P : Measure Ω) (N : ℕ) (X : ℕ → Ω → ℕ) : Prop where
  uniform : ∀ i, ∀ r < N, P.real {ω | X i ω % N = r} = 1 / N
  indep : iIndepFun (fun i ω => X i ω % N) P

end PyCTBN.Spec
