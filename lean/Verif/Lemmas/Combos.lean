import Verif.Model.StructEst
import Verif.Lemmas.Py
import Mathlib.Data.Finset.Card
import Mathlib.Data.Finset.Dedup
import Mathlib.Data.List.Nodup
import Mathlib.Data.Nat.Choose.Basic

namespace PyCTBN

theorem mem_combos {α : Type} {k : Nat} {l S : List α} : S ∈ combos k l ↔ S.Sublist l ∧ S.length = k := by
  induction l generalizing k S with
  | nil =>
    cases k with
    | zero => simp [combos]
    | succ k =>
      simp only [combos, List.not_mem_nil, List.sublist_nil, false_iff, not_and]
      rintro rfl; simp
  | cons x xs ih =>
    cases k with
    | zero =>
      simp only [combos, List.mem_singleton]
      constructor
      · rintro rfl; simp
      · rintro ⟨_, h⟩; exact List.length_eq_zero_iff.1 h
    | succ k =>
      simp only [combos, List.mem_append, List.mem_map, ih]
      constructor
      · rintro (⟨a, ⟨h1, h2⟩, rfl⟩ | ⟨h1, h2⟩)
        · exact ⟨h1.cons_cons x, by simp [h2]⟩
        · exact ⟨h1.cons x, h2⟩
      · rintro ⟨h1, h2⟩
        cases h1 with
        | cons _ h => exact Or.inr ⟨h, h2⟩
        | cons_cons _ h => exact Or.inl ⟨_, ⟨h, by simpa using h2⟩, rfl⟩

theorem combos_nodup {α : Type} {k : Nat} {l : List α} (h : l.Nodup) : (combos k l).Nodup := by
  induction l generalizing k with
  | nil => cases k <;> simp [combos]
  | cons x xs ih =>
    cases k with
    | zero => simp [combos]
    | succ k =>
      rw [List.nodup_cons] at h
      rw [combos]
      refine List.Nodup.append ((ih h.2).map (fun a b hab => by simpa using hab)) (ih h.2) ?_
      intro S h1 h2
      obtain ⟨T, _, rfl⟩ := List.mem_map.1 h1
      exact h.1 ((mem_combos.1 h2).1.subset (by simp))

theorem combos_length {α : Type} (k : Nat) (l : List α) : (combos k l).length = l.length.choose k := by
  induction l generalizing k with
  | nil => cases k <;> simp [combos]
  | cons x xs ih =>
    cases k with
    | zero => simp [combos]
    | succ k => simp [combos, ih, Nat.choose_succ_succ]

/-- Every `k`-element set of elements of `l` is one of the sub-lists. -/
theorem exists_combo {k : Nat} {l : List Label} (hl : l.Nodup) {R : Finset Label} (hR : R ⊆ l.toFinset) (hk : R.card = k) :
    ∃ S ∈ combos k l, S.toFinset = R := by
  refine ⟨l.filter (fun x => decide (x ∈ R)), mem_combos.2 ⟨List.filter_sublist, ?_⟩, ?_⟩
  · rw [← hk, ← List.toFinset_card_of_nodup (hl.filter _)]
    congr 1
    ext x; simp only [List.mem_toFinset, List.mem_filter, decide_eq_true_eq]
    exact ⟨fun h => h.2, fun h => ⟨List.mem_toFinset.1 (hR h), h⟩⟩
  · ext x; simp only [List.mem_toFinset, List.mem_filter, decide_eq_true_eq]
    exact ⟨fun h => h.2, fun h => ⟨List.mem_toFinset.1 (hR h), h⟩⟩

theorem subSetsOfSize_of_mem {u : List Label} {b : Nat} {p : Label} (h : p ∈ u) :
    subSetsOfSize u b p = .ok (combos b (u.erase p)) := by
  simp [subSetsOfSize, pyRemove, h]

end PyCTBN
