import Verif.Model.Cache
import Mathlib.Data.Finset.Basic
import Mathlib.Data.Finset.Dedup

namespace PyCTBN

theorem sameSet_iff {a b : List Label} : sameSet a b = true ↔ a.toFinset = b.toFinset := by
  unfold sameSet
  simp only [Bool.and_eq_true, List.all_eq_true, decide_eq_true_eq, Finset.ext_iff, List.mem_toFinset]
  constructor
  · rintro ⟨h1, h2⟩ x; exact ⟨h1 x, h2 x⟩
  · intro h; exact ⟨fun x hx => (h x).1 hx, fun x hx => (h x).2 hx⟩

namespace Cache
variable {α : Type}

/-- The set `K` is a key of the cache. -/
def Has (c : Cache α) (K : Finset Label) : Prop := ∃ e ∈ c, e.1.toFinset = K

theorem find_none {c : Cache α} {k : List Label} : c.find k = none ↔ ¬ c.Has k.toFinset := by
  unfold find Has
  simp only [Option.map_eq_none_iff, List.find?_eq_none, sameSet_iff, not_exists, not_and]

theorem find_some {c : Cache α} {k : List Label} {v : α} (h : c.find k = some v) :
    ∃ e ∈ c, e.1.toFinset = k.toFinset ∧ e.2 = v := by
  unfold find at h
  obtain ⟨e, he, rfl⟩ := Option.map_eq_some_iff.1 h
  have h2 := List.find?_some he
  exact ⟨e, List.mem_of_find?_eq_some he, sameSet_iff.1 h2, rfl⟩

theorem has_put {c : Cache α} {k : List Label} {v : α} {K : Finset Label} :
    (c.put k v).Has K ↔ c.Has K ∨ k.toFinset = K := by
  unfold Has put
  simp only [List.mem_append, List.mem_singleton]
  constructor
  · rintro ⟨e, he | rfl, h⟩
    · exact Or.inl ⟨e, he, h⟩
    · exact Or.inr h
  · rintro (⟨e, he, h⟩ | h)
    · exact ⟨e, Or.inl he, h⟩
    · exact ⟨(k, v), Or.inr rfl, h⟩

theorem find_congr {c : Cache α} {k k' : List Label} (h : k.toFinset = k'.toFinset) : c.find k = c.find k' := by
  unfold find
  congr 2
  funext e
  rw [Bool.eq_iff_iff, sameSet_iff, sameSet_iff, h]

end Cache
end PyCTBN
