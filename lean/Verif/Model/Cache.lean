import Verif.Model.Py

/-!
# Model of `PyCTBN/PyCTBN/utility/cache.py`
-/

namespace PyCTBN

/-- Python `set` equality of the elements of two lists. -/
def sameSet (a b : List Label) : Bool :=
  a.all (fun l => decide (l ∈ b)) && b.all (fun l => decide (l ∈ a))

/-- `Cache.__init__`, cache.py lines 18-22: the two parallel lists are kept as one list of pairs (`put` always extends both
and `clear` always empties both).  A key is the list of labels from which the caller builds the `set`. -/
abbrev Cache (α : Type) := List (List Label × α)

namespace Cache
variable {α : Type}

/-- `find`, cache.py lines 24-39: `list.index` finds the first equal set; absence (`ValueError`) gives `None`. -/
def find (c : Cache α) (k : List Label) : Option α := (List.find? (fun e => sameSet e.1 k) c).map Prod.snd

/-- `put`, cache.py lines 41-51: appends, also when the key is already present. -/
def put (c : Cache α) (k : List Label) (v : α) : Cache α := c ++ [(k, v)]

/-- `clear`, cache.py lines 53-57. -/
def clear (_ : Cache α) : Cache α := []

/-- What a caller can do to a cache. -/
inductive Op (α : Type) where
  | put (k : List Label) (v : α)
  | find (k : List Label)
  | clear

/-- Effect of one call on the object (`find` has none). -/
def apply (c : Cache α) : Op α → Cache α
  | .put k v => Cache.put c k v
  | .find _ => c
  | .clear => Cache.clear c

end Cache
end PyCTBN
