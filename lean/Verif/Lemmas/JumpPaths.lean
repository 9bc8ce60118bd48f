import Verif.Spec.SampleStats
import Mathlib.Algebra.BigOperators.Fin
import Mathlib.Tactic.LinearCombination

/-!
# Finite sums over the paths of a jump process
-/

open Finset

namespace PyCTBN.JumpPaths
open Spec

noncomputable section

/-- A step: the position of a variable and its new state. -/
abbrev Step := (_ : Nat) × Nat

/-- The steps the variables of the network can make. -/
def steps (N : Ctbn) : Finset Step := (range N.vars.length).sigma (fun k => range (N.card (N.vars.getD k "")))

/-- All paths of `n` steps. -/
def paths (N : Ctbn) (n : Nat) : Finset (Fin n → Step) := Fintype.piFinset (fun _ => steps N)

theorem sum_paths_succ (N : Ctbn) (n : Nat) (f : (Fin (n + 1) → Step) → ℝ) :
    ∑ σ ∈ paths N (n + 1), f σ = ∑ s ∈ steps N, ∑ σ ∈ paths N n, f (Fin.cons s σ) := by
  rw [← Finset.sum_product']
  refine Finset.sum_nbij' (fun σ => (σ 0, Fin.tail σ)) (fun p => Fin.cons p.1 p.2) ?_ ?_ ?_ ?_ ?_
  · intro σ hσ
    simp only [paths, Fintype.mem_piFinset] at hσ
    simp only [Finset.mem_product, paths, Fintype.mem_piFinset]
    exact ⟨hσ 0, fun i => hσ i.succ⟩
  · rintro ⟨s, σ⟩ h
    simp only [Finset.mem_product, paths, Fintype.mem_piFinset] at h ⊢
    intro i
    refine Fin.cases ?_ (fun j => ?_) i
    · simpa using h.1
    · simpa using h.2 j
  · intro σ _; exact Fin.cons_self_tail σ
  · rintro ⟨s, σ⟩ _; simp
  · intro σ _; simp [Fin.cons_self_tail]

variable (N : Ctbn) (rate : Rates)

/-- The joint state after a step. -/
def after (vals : List Nat) (s : Step) : List Nat := vals.set s.1 s.2

/-- The probability of a step. -/
def stepProb (vals : List Nat) (s : Step) : ℝ := rate vals (N.vars.getD s.1 "") s.2 / totalRate N rate vals

/-- The probability of a path. -/
def pathProb : {n : Nat} → (Fin n → Step) → List Nat → ℝ
  | 0, _, _ => 1
  | _ + 1, σ, vals => stepProb N rate vals (σ 0) * pathProb (Fin.tail σ) (after vals (σ 0))

/-- The value of a function of the joint state and the next step, along a path. -/
def along {α : Type} (g : List Nat → Step → α) : {n : Nat} → (Fin n → Step) → List Nat → Fin n → α
  | 0, _, _ => Fin.elim0
  | _ + 1, σ, vals => Fin.cons (g vals (σ 0)) (along g (Fin.tail σ) (after vals (σ 0)))

/-- The total rates along a path. -/
abbrev ratesAlong {n : Nat} (σ : Fin n → Step) (vals : List Nat) : Fin n → ℝ := along (fun vals _ => totalRate N rate vals) σ vals

theorem pathProb_cons {n : Nat} (s : Step) (σ : Fin n → Step) (vals : List Nat) :
    pathProb N rate (Fin.cons s σ) vals = stepProb N rate vals s * pathProb N rate σ (after vals s) := by
  rw [pathProb, Fin.cons_zero, Fin.tail_cons]

theorem along_cons {α : Type} (g : List Nat → Step → α) {n : Nat} (s : Step) (σ : Fin n → Step) (vals : List Nat) :
    along g (Fin.cons s σ) vals = Fin.cons (g vals s) (along g σ (after vals s)) := by
  rw [along, Fin.cons_zero, Fin.tail_cons]

theorem sum_along_cons (g : List Nat → Step → ℝ) {n : Nat} (s : Step) (σ : Fin n → Step) (vals : List Nat) :
    ∑ i, along g (Fin.cons s σ) vals i = g vals s + ∑ i, along g σ (after vals s) i := by
  rw [along_cons, Fin.sum_univ_succ]
  simp

/-- Rates that are not negative, with a positive total, in every joint state. -/
structure Usable : Prop where
  nonneg : ∀ vals, N.InRange vals → ∀ v ∈ N.vars, ∀ y < N.card v, 0 ≤ rate vals v y
  pos : ∀ vals, N.InRange vals → 0 < totalRate N rate vals
  closed : ∀ vals, N.InRange vals → ∀ s ∈ steps N, N.InRange (after vals s)

variable {N rate}

theorem mem_steps {s : Step} : s ∈ steps N ↔ ∃ v, N.vars[s.1]? = some v ∧ s.2 < N.card v := by
  simp only [steps, Finset.mem_sigma, Finset.mem_range]
  constructor
  · rintro ⟨h1, h2⟩
    refine ⟨N.vars[s.1], List.getElem?_eq_getElem h1, ?_⟩
    simpa [List.getD_eq_getElem?_getD, h1] using h2
  · rintro ⟨v, h1, h2⟩
    refine ⟨(List.getElem?_eq_some_iff.1 h1).1, ?_⟩
    simpa [List.getD_eq_getElem?_getD, h1] using h2

theorem sum_rates (vals : List Nat) : ∑ s ∈ steps N, rate vals (N.vars.getD s.1 "") s.2 = totalRate N rate vals := by
  unfold steps totalRate
  rw [Finset.sum_sigma]
  have e : ∀ (n : Nat) (f : Nat → ℝ), ∑ y ∈ range n, f y = ((List.range n).map f).sum := fun n f => rfl
  have hv : (List.range N.vars.length).map (fun i : Nat => N.vars.getD i "") = N.vars := by
    apply List.ext_getElem (by simp)
    intro i h1 h2
    simp [List.getD_eq_getElem?_getD, h2]
  conv_rhs => rw [← hv]
  rw [e, List.map_map]
  rfl

section
variable (hU : Usable N rate)
include hU

theorem sum_stepProb {vals : List Nat} (hr : N.InRange vals) : ∑ s ∈ steps N, stepProb N rate vals s = 1 := by
  unfold stepProb
  rw [← Finset.sum_div, sum_rates, div_self (hU.pos vals hr).ne']

theorem stepProb_nonneg {vals : List Nat} (hr : N.InRange vals) {s : Step} (hs : s ∈ steps N) : 0 ≤ stepProb N rate vals s := by
  obtain ⟨v, h1, h2⟩ := mem_steps.1 hs
  unfold stepProb
  have : N.vars.getD s.1 "" = v := by simp [List.getD_eq_getElem?_getD, h1]
  rw [this]
  exact div_nonneg (hU.nonneg vals hr v (List.mem_of_getElem? h1) _ h2) (hU.pos vals hr).le

theorem pathProb_nonneg {n : Nat} : ∀ {vals : List Nat}, N.InRange vals → ∀ {σ : Fin n → Step}, σ ∈ paths N n → 0 ≤ pathProb N rate σ vals := by
  induction n with
  | zero => intro vals _ σ _; rw [pathProb]; exact zero_le_one
  | succ n ih =>
    intro vals hr σ hσ
    simp only [paths, Fintype.mem_piFinset] at hσ
    rw [pathProb]
    refine mul_nonneg (stepProb_nonneg hU hr (hσ 0)) (ih (hU.closed vals hr _ (hσ 0)) ?_)
    simp only [paths, Fintype.mem_piFinset]
    exact fun i => hσ i.succ

theorem sum_pathProb (n : Nat) : ∀ {vals : List Nat}, N.InRange vals → ∑ σ ∈ paths N n, pathProb N rate σ vals = 1 := by
  induction n with
  | zero => intro vals _; simp [paths, pathProb]
  | succ n ih =>
    intro vals hr
    rw [sum_paths_succ]
    simp only [pathProb_cons, ← Finset.mul_sum]
    rw [Finset.sum_congr rfl (fun s hs => by rw [ih (hU.closed vals hr s hs), mul_one])]
    exact sum_stepProb hU hr

theorem ratesAlong_pos {n : Nat} : ∀ {vals : List Nat}, N.InRange vals → ∀ {σ : Fin n → Step}, σ ∈ paths N n → ∀ i, 0 < ratesAlong N rate σ vals i := by
  induction n with
  | zero => intro vals _ σ _ i; exact i.elim0
  | succ n ih =>
    intro vals hr σ hσ i
    simp only [paths, Fintype.mem_piFinset] at hσ
    refine Fin.cases ?_ (fun j => ?_) i
    · simp only [ratesAlong, along, Fin.cons_zero]; exact hU.pos vals hr
    · simp only [ratesAlong, along, Fin.cons_succ]
      refine ih (hU.closed vals hr _ (hσ 0)) ?_ j
      simp only [paths, Fintype.mem_piFinset]
      exact fun i => hσ i.succ

/-! ## Two identities for functions along paths

`c` is an indicator of joint states, `b` an indicator of steps taken in such states whose probability is `ρ / R`. -/

variable {b : List Nat → Step → ℝ} {c : List Nat → ℝ} {ρ : ℝ}
  (hb : ∀ vals, N.InRange vals → ∑ s ∈ steps N, stepProb N rate vals s * b vals s = c vals * (ρ / totalRate N rate vals))
  (hb2 : ∀ vals s, b vals s ^ 2 = b vals s) (hc2 : ∀ vals, c vals ^ 2 = c vals) (hbc : ∀ vals s, b vals s * c vals = b vals s)
include hb

theorem sum_increment {vals : List Nat} (hr : N.InRange vals) :
    ∑ s ∈ steps N, stepProb N rate vals s * (b vals s - ρ * c vals / totalRate N rate vals) = 0 := by
  simp only [mul_sub]
  rw [Finset.sum_sub_distrib, hb vals hr, ← Finset.sum_mul, sum_stepProb hU hr]
  ring

/-- The compensated count has mean zero. -/
theorem path_mean (n : Nat) : ∀ {vals : List Nat}, N.InRange vals →
    ∑ σ ∈ paths N n, pathProb N rate σ vals * ∑ i, along (fun vals s => b vals s - ρ * c vals / totalRate N rate vals) σ vals i = 0 := by
  induction n with
  | zero => intro vals _; simp [paths]
  | succ n ih =>
    intro vals hr
    rw [sum_paths_succ, ← sum_increment hU hb hr]
    refine Finset.sum_congr rfl (fun s hs => ?_)
    simp only [pathProb_cons, sum_along_cons, mul_add]
    rw [Finset.sum_add_distrib]
    have h1 := ih (hU.closed vals hr s hs)
    have h2 := sum_pathProb hU n (hU.closed vals hr s hs)
    simp only [mul_assoc]
    rw [← Finset.mul_sum, ← Finset.mul_sum, h1, ← Finset.sum_mul, h2]
    ring

include hb2 hc2 hbc

theorem sum_increment_sq {vals : List Nat} (hr : N.InRange vals) :
    ∑ s ∈ steps N, stepProb N rate vals s * ((b vals s - ρ * c vals / totalRate N rate vals) ^ 2 + (ρ * c vals) ^ 2 / totalRate N rate vals ^ 2)
      = ∑ s ∈ steps N, stepProb N rate vals s * b vals s := by
  have hR := (hU.pos vals hr).ne'
  have e : ∀ s ∈ steps N, stepProb N rate vals s * ((b vals s - ρ * c vals / totalRate N rate vals) ^ 2 + (ρ * c vals) ^ 2 / totalRate N rate vals ^ 2)
      = stepProb N rate vals s * b vals s * (1 - 2 * (ρ / totalRate N rate vals)) + stepProb N rate vals s * (2 * (c vals * (ρ / totalRate N rate vals) ^ 2)) := by
    intro s _
    have h1 := hb2 vals s
    have h2 := hc2 vals
    have h3 := hbc vals s
    have : (b vals s - ρ * c vals / totalRate N rate vals) ^ 2 + (ρ * c vals) ^ 2 / totalRate N rate vals ^ 2
        = b vals s ^ 2 - 2 * (b vals s * c vals) * (ρ / totalRate N rate vals) + 2 * (c vals ^ 2 * (ρ / totalRate N rate vals) ^ 2) := by
      field_simp
      ring
    rw [this, h1, h2, h3]
    ring
  rw [Finset.sum_congr rfl e, Finset.sum_add_distrib, ← Finset.sum_mul, ← Finset.sum_mul, sum_stepProb hU hr, hb vals hr]
  ring

/-- The second moment of the compensated count is the mean of the count. -/
theorem path_second (n : Nat) : ∀ {vals : List Nat}, N.InRange vals →
    ∑ σ ∈ paths N n, pathProb N rate σ vals * (∑ i, along (fun vals _ => (ρ * c vals) ^ 2 / totalRate N rate vals ^ 2) σ vals i
        + (∑ i, along (fun vals s => b vals s - ρ * c vals / totalRate N rate vals) σ vals i) ^ 2)
      = ∑ σ ∈ paths N n, pathProb N rate σ vals * ∑ i, along b σ vals i := by
  induction n with
  | zero => intro vals _; simp [paths]
  | succ n ih =>
    intro vals hr
    rw [sum_paths_succ, sum_paths_succ]
    have key : ∀ s ∈ steps N,
        ∑ σ ∈ paths N n, pathProb N rate (Fin.cons s σ) vals * (∑ i, along (fun vals _ => (ρ * c vals) ^ 2 / totalRate N rate vals ^ 2) (Fin.cons s σ) vals i
          + (∑ i, along (fun vals s => b vals s - ρ * c vals / totalRate N rate vals) (Fin.cons s σ) vals i) ^ 2)
        = stepProb N rate vals s * ((b vals s - ρ * c vals / totalRate N rate vals) ^ 2 + (ρ * c vals) ^ 2 / totalRate N rate vals ^ 2)
          + stepProb N rate vals s * ∑ σ ∈ paths N n, pathProb N rate σ (after vals s) * ∑ i, along b σ (after vals s) i := by
      intro s hs
      have hr' := hU.closed vals hr s hs
      rw [← ih hr']
      have h1 := path_mean hU hb n hr'
      have h2 := sum_pathProb hU n hr'
      set g := fun (vals : List Nat) (s : Step) => b vals s - ρ * c vals / totalRate N rate vals
      set d := g vals s
      set q := (ρ * c vals) ^ 2 / totalRate N rate vals ^ 2
      have e : ∀ σ ∈ paths N n, pathProb N rate (Fin.cons s σ) vals *
          (∑ i, along (fun vals _ => (ρ * c vals) ^ 2 / totalRate N rate vals ^ 2) (Fin.cons s σ) vals i + (∑ i, along g (Fin.cons s σ) vals i) ^ 2)
          = stepProb N rate vals s * ((d ^ 2 + q) * pathProb N rate σ (after vals s)
            + 2 * d * (pathProb N rate σ (after vals s) * ∑ i, along g σ (after vals s) i)
            + pathProb N rate σ (after vals s) * (∑ i, along (fun vals _ => (ρ * c vals) ^ 2 / totalRate N rate vals ^ 2) σ (after vals s) i
              + (∑ i, along g σ (after vals s) i) ^ 2)) := by
        intro σ _
        rw [pathProb_cons, sum_along_cons, sum_along_cons]
        ring
      rw [Finset.sum_congr rfl e, ← Finset.mul_sum, Finset.sum_add_distrib, Finset.sum_add_distrib, ← Finset.mul_sum, ← Finset.mul_sum, h1, h2]
      ring
    rw [Finset.sum_congr rfl key, Finset.sum_add_distrib, sum_increment_sq hU hb hb2 hc2 hbc hr, ← Finset.sum_add_distrib]
    refine Finset.sum_congr rfl (fun s hs => ?_)
    simp only [pathProb_cons, sum_along_cons, mul_add]
    rw [Finset.sum_add_distrib]
    simp only [mul_assoc]
    rw [← Finset.mul_sum, ← Finset.mul_sum, ← Finset.sum_mul, sum_pathProb hU n (hU.closed vals hr s hs)]
    ring

end

end

end PyCTBN.JumpPaths
