import Verif.Model.JsonText

/-! Specification vocabulary for JSON texts. -/

namespace PyCTBN
namespace Spec

mutual
/-- No dictionary in the value has a key twice. -/
def Distinct : JVal → Prop
  | .arr l => allDistinct l
  | .obj fs => (fs.map Prod.fst).Nodup ∧ fieldsDistinct fs
  | _ => True
/-- For the elements of a list. -/
def allDistinct : List JVal → Prop
  | [] => True
  | v :: vs => Distinct v ∧ allDistinct vs
/-- For the entries of a dictionary. -/
def fieldsDistinct : List (String × JVal) → Prop
  | [] => True
  | (_, v) :: fs => Distinct v ∧ fieldsDistinct fs
end


/-- A list or a dictionary. -/
def Container : JVal → Prop
  | .arr _ => True
  | .obj _ => True
  | _ => False

end Spec
end PyCTBN
