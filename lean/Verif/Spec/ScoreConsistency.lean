import Verif.Spec.Consistency

/-!
# Specification vocabulary: does one more parent matter, in the data
-/

namespace PyCTBN.Spec

/-- What is observed of `n` while the variables `K` are in the states given by `a` and `p` is in state `z`. -/
def givenWith (s : Structure) (t : Trajectory) (n : Label) (c : Nat) (K : List Label) (p : Label) (a : Label → Nat) (z : Nat) : Stats :=
  given s t n c (p :: K) (Function.update a p z)

/-- In the data, `p` matters to `n` beyond `K`: in some circumstances (states of `K`) there are two states of `p`, both of which occur, under which `n` goes
from some state `x` to some state `y` at different rates. -/
def Matters (s : Structure) (t : Trajectory) (n : Label) (c : Nat) (K : List Label) (p : Label) : Prop :=
  ∃ a : Label → Nat, (∀ q, a q < c) ∧ ∃ x y z z', x < c ∧ y < c ∧ y ≠ x ∧ z < c ∧ z' < c ∧
    0 < (givenWith s t n c K p a z).time x ∧ 0 < (givenWith s t n c K p a z').time x ∧
    (givenWith s t n c K p a z).count x y / (givenWith s t n c K p a z).time x ≠
      (givenWith s t n c K p a z').count x y / (givenWith s t n c K p a z').time x

/-- In the data, `p` varies beyond `n` and `K`: with `n` in some state and `K` in some states, two states of `p` occur. -/
def Varies (s : Structure) (t : Trajectory) (n : Label) (c : Nat) (K : List Label) (p : Label) : Prop :=
  ∃ a : Label → Nat, (∀ q, a q < c) ∧ ∃ x z z', x < c ∧ z < c ∧ z' < c ∧ z ≠ z' ∧
    0 < (givenWith s t n c K p a z).time x ∧ 0 < (givenWith s t n c K p a z').time x

end PyCTBN.Spec
