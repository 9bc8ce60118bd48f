import Verif.Spec.TrajGen

/-!
# Specification vocabulary: labels that survive the key format of exported CIMs
-/

namespace PyCTBN.Spec

/-- Nowhere in the label is `=` followed by a digit. -/
def ReadableLabel (l : Label) : Prop := ¬ ∃ (A : List Char) (d : Char) (B : List Char), l.toList = A ++ '=' :: d :: B ∧ d.isDigit

end PyCTBN.Spec
