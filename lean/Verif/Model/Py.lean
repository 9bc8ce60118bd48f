/-!
# Python base: exceptions as values and the list primitives used by PyCTBN

No line of /repo is modelled here; these are the CPython built-ins that the modelled code calls.
-/

namespace PyCTBN

/-- Python exceptions raised (or re-raised) by the modelled code.  `blocked` stands for a call that never
returns because it waits forever on an empty `queue.Queue`; `outOfFuel` for a `while True` loop that is still
running after the number of rounds granted by the caller. -/
inductive PyErr where
  | valueError | indexError | keyError | zeroDivisionError | runtimeError | attributeError
  | unboundLocalError | typeError | networkXError | blocked | outOfFuel
deriving DecidableEq, Repr

/-- A Python computation: a value or an exception. -/
abbrev Py (α : Type _) := Except PyErr α

/-- Node labels (`str`). -/
abbrev Label := String

/-- A directed edge `(from, to)`. -/
abbrev Edge := Label × Label

/-- `list.index(x)`: position of the first occurrence, `ValueError` if absent. -/
def pyIndex {α : Type _} [BEq α] [LawfulBEq α] (l : List α) (x : α) : Py Nat :=
  match l.idxOf? x with
  | some i => .ok i
  | none => .error .valueError

/-- `l[i]` for a non-negative `i`: `IndexError` when out of range.
(Simplification: negative Python indexes, which count from the end, are not modelled.) -/
def pyGet {α : Type _} (l : List α) (i : Nat) : Py α :=
  match l[i]? with
  | some a => .ok a
  | none => .error .indexError

/-- `list.remove(x)`: removes the first occurrence, `ValueError` if absent. -/
def pyRemove {α : Type _} [BEq α] [LawfulBEq α] (l : List α) (x : α) : Py (List α) :=
  if x ∈ l then .ok (l.erase x) else .error .valueError

/-- `np.delete(arr, pos)` on a one-dimensional array. -/
def npDelete {α : Type _} (l : List α) (i : Nat) : Py (List α) :=
  if i < l.length then .ok (l.eraseIdx i) else .error .indexError

end PyCTBN
