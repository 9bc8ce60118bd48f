import Verif.Spec.Assign
import Mathlib.Data.List.Nodup
import Mathlib.Data.List.Range
import Mathlib.Data.List.Pairwise

namespace PyCTBN
open Spec

theorem mem_assignments {ps u : List Nat} : u ∈ assignments ps ↔ InRangeAssign ps u := by
  induction ps generalizing u with
  | nil => simp [assignments, InRangeAssign]
  | cons p ps ih =>
    simp only [assignments, List.mem_flatMap, List.mem_range, List.mem_map]
    constructor
    · rintro ⟨x, hx, v, hv, rfl⟩
      exact .cons hx (ih.1 hv)
    · intro h
      cases h with
      | cons h1 h2 => exact ⟨_, h1, _, ih.2 h2, rfl⟩

theorem assignments_nodup (ps : List Nat) : (assignments ps).Nodup := by
  induction ps with
  | nil => simp [assignments]
  | cons p ps ih =>
    simp only [assignments]
    rw [List.nodup_flatMap]
    refine ⟨fun x _ => ih.map (fun a b h => by injection h), ?_⟩
    refine List.nodup_range.imp_of_mem (fun {a b} _ _ hab => ?_)
    rw [Function.onFun, List.disjoint_left]
    intro u hu hu'
    obtain ⟨v, -, rfl⟩ := List.mem_map.1 hu
    obtain ⟨w, -, e⟩ := List.mem_map.1 hu'
    injection e with e _
    exact hab e.symm

end PyCTBN
