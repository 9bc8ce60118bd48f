import Mathlib.LinearAlgebra.FiniteDimensional.Defs
import Mathlib.LinearAlgebra.FiniteDimensional.Lemmas
import Mathlib.Data.Real.Basic
import Mathlib.Algebra.Order.BigOperators.Group.Finset
import Mathlib.Logic.Relation
import Mathlib.Tactic.Linarith
import Mathlib.Data.Finset.Max

/-!
# Finite irreducible Markov chains: long-run averages
-/

open Finset

namespace PyCTBN.Chains

noncomputable section

variable {S : Type} [Fintype S]

/-- Transition probabilities of a chain in which every state can be reached from every other. -/
structure Irreducible (P : S → S → ℝ) : Prop where
  nonneg : ∀ x y, 0 ≤ P x y
  sum : ∀ x, ∑ y, P x y = 1
  conn : ∀ x y, Relation.ReflTransGen (fun x y => 0 < P x y) x y

/-- A function that is nowhere below its mean after one step is constant. -/
theorem superharmonic {P : S → S → ℝ} (hP : Irreducible P) {g : S → ℝ} (h : ∀ x, ∑ y, P x y * g y ≤ g x) (x y : S) : g x = g y := by
  have hne : (univ : Finset S).Nonempty := ⟨x, mem_univ x⟩
  obtain ⟨z, -, hz⟩ := exists_min_image univ g hne
  have hmin : ∀ w, g z ≤ g w := fun w => hz w (mem_univ w)
  have hstep : ∀ a b, g a = g z → 0 < P a b → g b = g z := by
    intro a b ha hab
    have h1 := h a
    rw [ha] at h1
    have h2 : ∑ y, P a y * (g y - g z) ≤ 0 := by
      simp only [mul_sub, sum_sub_distrib, ← sum_mul, hP.sum a]
      linarith
    have h3 : ∀ y ∈ univ, 0 ≤ P a y * (g y - g z) := fun y _ => mul_nonneg (hP.nonneg a y) (sub_nonneg.2 (hmin y))
    have h4 := (sum_eq_zero_iff_of_nonneg h3).1 (le_antisymm h2 (sum_nonneg h3)) b (mem_univ b)
    rcases mul_eq_zero.1 h4 with h5 | h5
    · linarith
    · linarith
  have hall : ∀ w, g w = g z := by
    intro w
    induction hP.conn z w with
    | refl => rfl
    | tail _ hab ih => exact hstep _ _ ih hab
  rw [hall x, hall y]

/-- The Poisson equation has a solution. -/
theorem poisson {P : S → S → ℝ} (hP : Irreducible P) (x₀ : S) (f : S → ℝ) : ∃ (g : S → ℝ) (c : ℝ), ∀ x, f x = g x - ∑ y, P x y * g y + c := by
  let L : (S → ℝ) →ₗ[ℝ] (S → ℝ) :=
    { toFun := fun g x => g x - ∑ y, P x y * g y + g x₀
      map_add' := by
        intro g g'
        funext x
        simp only [Pi.add_apply, mul_add, sum_add_distrib]
        ring
      map_smul' := by
        intro a g
        funext x
        simp only [Pi.smul_apply, smul_eq_mul, RingHom.id_apply]
        have : ∑ y, P x y * (a * g y) = a * ∑ y, P x y * g y := by
          rw [mul_sum]; exact sum_congr rfl (fun y _ => by ring)
        rw [this]; ring }
  have hinj : Function.Injective L := by
    rw [injective_iff_map_eq_zero]
    intro g hg
    have hg' : ∀ x, g x - ∑ y, P x y * g y + g x₀ = 0 := fun x => congrFun hg x
    have hconst : ∀ x y, g x = g y := by
      rcases le_total (g x₀) 0 with h0 | h0
      · exact superharmonic hP (fun x => by have := hg' x; linarith)
      · have := superharmonic hP (g := fun x => -g x) (fun x => by
          have h1 := hg' x
          have h2 : ∑ y, P x y * -g y = -∑ y, P x y * g y := by rw [← sum_neg_distrib]; exact sum_congr rfl (fun y _ => by ring)
          rw [h2]; linarith)
        intro x y
        exact neg_injective (this x y)
    have h1 := hg' x₀
    have h2 : ∑ y, P x₀ y * g y = g x₀ := by
      rw [sum_congr rfl (fun y _ => by rw [hconst y x₀]), ← sum_mul, hP.sum, one_mul]
    rw [h2] at h1
    funext x
    rw [hconst x x₀]
    simp only [Pi.zero_apply]
    linarith
  obtain ⟨g, hg⟩ := (LinearMap.injective_iff_surjective.1 hinj) f
  exact ⟨g, g x₀, fun x => (congrFun hg x).symm⟩

/-- The long-run average of a function that is nowhere negative and somewhere positive is positive. -/
theorem poisson_pos {P : S → S → ℝ} (hP : Irreducible P) {f g : S → ℝ} {c : ℝ} (h : ∀ x, f x = g x - ∑ y, P x y * g y + c) (h0 : ∀ x, 0 ≤ f x)
    {x : S} (hx : 0 < f x) : 0 < c := by
  by_contra hc
  have hconst := superharmonic hP (g := g) (fun x => by have := h x; have := h0 x; linarith)
  have h2 : ∑ y, P x y * g y = g x := by
    rw [sum_congr rfl (fun y _ => by rw [hconst y x]), ← sum_mul, hP.sum, one_mul]
  have := h x
  rw [h2] at this
  linarith

/-- The long-run average is unique. -/
theorem poisson_unique {P : S → S → ℝ} (hP : Irreducible P) (x₀ : S) {f g g' : S → ℝ} {c c' : ℝ} (h : ∀ x, f x = g x - ∑ y, P x y * g y + c)
    (h' : ∀ x, f x = g' x - ∑ y, P x y * g' y + c') : c = c' := by
  have key : ∀ {g g' : S → ℝ} {c c' : ℝ}, (∀ x, f x = g x - ∑ y, P x y * g y + c) → (∀ x, f x = g' x - ∑ y, P x y * g' y + c') → ¬ c < c' := by
    intro g g' c c' h h' hlt
    have hconst := superharmonic hP (g := fun x => g x - g' x) (fun x => by
      have h1 := h x; have h2 := h' x
      simp only [mul_sub, sum_sub_distrib]; linarith)
    have h2 : ∑ y, P x₀ y * (g y - g' y) = g x₀ - g' x₀ := by
      rw [sum_congr rfl (fun y _ => by rw [hconst y x₀]), ← sum_mul, hP.sum, one_mul]
    simp only [mul_sub, sum_sub_distrib] at h2
    have h3 := h x₀; have h4 := h' x₀
    linarith
  exact le_antisymm (not_lt.1 (key h' h)) (not_lt.1 (key h h'))

end

end PyCTBN.Chains
