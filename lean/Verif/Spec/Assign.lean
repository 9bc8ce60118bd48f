import Verif.Spec.Params

/-!
# Specification vocabulary: all assignments of states
-/

namespace PyCTBN.Spec

/-- All assignments of states to variables with the given numbers of states. -/
def assignments : List Nat → List (List Nat)
  | [] => [[]]
  | p :: ps => (List.range p).flatMap (fun x => (assignments ps).map (fun u => x :: u))

end PyCTBN.Spec
