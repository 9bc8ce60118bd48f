import Verif.Lemmas.PathMoments
import Verif.Lemmas.Poisson
import Verif.Lemmas.TrajGen
import Mathlib.Data.Set.Finite.List

/-!
# Long-run averages along the path of a jump process
-/

open MeasureTheory ProbabilityTheory Finset
open scoped ENNReal

namespace PyCTBN.JumpPaths
open Spec

noncomputable section

/-! ## Finitely many joint states -/

theorem finite_inRange {N : Ctbn} (hOK : N.OK) : {vals | N.InRange vals}.Finite := by
  let B := (N.vars.map N.card).sum + 1
  have h := (List.finite_length_eq (Fin B) N.vars.length).image (List.map (fun i : Fin B => i.val))
  refine h.subset ?_
  rintro vals ⟨h1, h2⟩
  have hlt : ∀ x ∈ vals, x < B := by
    intro x hx
    obtain ⟨i, hi, rfl⟩ := List.mem_iff_getElem.1 hx
    have hi' : i < N.vars.length := by omega
    have hv := List.getElem_mem (l := N.vars) hi'
    have h3 := h2 _ hv
    have h4 : N.state vals N.vars[i] = vals[i] := by
      unfold Ctbn.state
      rw [hOK.nodup.idxOf_getElem i hi', List.getElem?_eq_getElem hi]; rfl
    rw [h4] at h3
    have h5 : N.card N.vars[i] ≤ (N.vars.map N.card).sum := List.le_sum_of_mem (List.mem_map_of_mem hv)
    omega
  refine ⟨vals.attach.map (fun x => ⟨x.1, hlt x.1 x.2⟩), by simp [h1], ?_⟩
  rw [List.map_map]
  exact List.attach_map_subtype_val vals

theorem bounded_inRange {N : Ctbn} (hOK : N.OK) (f : List Nat → ℝ) : ∃ K, 0 ≤ K ∧ ∀ vals, N.InRange vals → |f vals| ≤ K := by
  obtain ⟨K, hK⟩ := ((finite_inRange hOK).image (fun vals => |f vals|)).bddAbove
  exact ⟨max K 0, le_max_right _ _, fun vals hr => (hK ⟨vals, hr, rfl⟩).trans (le_max_left _ _)⟩

variable {N : Ctbn} {rate : Rates}

theorem rate_bounds (hOK : N.OK) (hU : Usable N rate) : ∃ Rm RM, 0 < Rm ∧ ∀ vals, N.InRange vals → Rm ≤ totalRate N rate vals ∧ totalRate N rate vals ≤ RM := by
  obtain ⟨K, hK0, hK⟩ := bounded_inRange hOK (fun vals => (totalRate N rate vals)⁻¹)
  obtain ⟨RM, -, hRM⟩ := bounded_inRange hOK (fun vals => totalRate N rate vals)
  refine ⟨(K + 1)⁻¹, RM, by positivity, fun vals hr => ⟨?_, (le_abs_self _).trans (hRM vals hr)⟩⟩
  have hp := hU.pos vals hr
  have h1 := hK vals hr
  rw [abs_of_pos (by positivity)] at h1
  rw [inv_le_comm₀ (by positivity) hp]
  linarith

/-! ## The Poisson equation -/

variable (N rate) in
/-- Every joint state can be reached from every other. -/
def Connected : Prop := ∀ vals vals', N.InRange vals → N.InRange vals' →
  Relation.ReflTransGen (fun a b => ∃ s ∈ steps N, 0 < stepProb N rate a s ∧ b = after a s) vals vals'

variable (N rate) in
/-- The mean of a function after one step. -/
def next (g : List Nat → ℝ) (vals : List Nat) : ℝ := ∑ s ∈ steps N, stepProb N rate vals s * g (after vals s)

section
variable (hOK : N.OK) (hU : Usable N rate) (hconn : Connected N rate)
include hOK hU hconn

theorem longRun (f : List Nat → ℝ) : ∃ (g : List Nat → ℝ) (c : ℝ), (∀ vals, N.InRange vals → f vals = g vals - next N rate g vals + c) ∧
    ((∀ vals, N.InRange vals → 0 ≤ f vals) → (∃ vals, N.InRange vals ∧ 0 < f vals) → 0 < c) := by
  classical
  let S := {vals // N.InRange vals}
  have : Fintype S := (finite_inRange hOK).fintype
  let z : S := ⟨N.vars.map (fun _ => 0), by
    refine ⟨by simp, fun v hv => ?_⟩
    have : N.state (N.vars.map (fun _ => 0)) v = 0 := by
      unfold Ctbn.state
      rw [List.getElem?_map]
      cases N.vars[N.vars.idxOf v]? <;> rfl
    rw [this]; exact hOK.pos v hv⟩
  let P : S → S → ℝ := fun x y => ∑ s ∈ steps N, if after x.1 s = y.1 then stepProb N rate x.1 s else 0
  have hP0 : ∀ x y, 0 ≤ P x y := fun x y => Finset.sum_nonneg (fun s hs => by split_ifs; exacts [stepProb_nonneg hU x.2 hs, le_rfl])
  have hPg : ∀ (x : S) (g : S → ℝ), ∑ y, P x y * g y = ∑ s ∈ (steps N).attach, stepProb N rate x.1 s.1 * g ⟨after x.1 s.1, hU.closed x.1 x.2 s.1 s.2⟩ := by
    intro x g
    have h1 : ∑ y, P x y * g y = ∑ y : S, ∑ s ∈ (steps N).attach, if after x.1 s.1 = y.1 then stepProb N rate x.1 s.1 * g y else 0 := by
      refine Finset.sum_congr rfl (fun y _ => ?_)
      rw [Finset.sum_mul, ← Finset.sum_attach]
      exact Finset.sum_congr rfl (fun s _ => by split_ifs <;> simp)
    rw [h1, Finset.sum_comm]
    refine Finset.sum_congr rfl (fun s _ => ?_)
    rw [Finset.sum_eq_single (⟨after x.1 s.1, hU.closed x.1 x.2 s.1 s.2⟩ : S)]
    · simp
    · intro b _ hb
      rw [if_neg]
      intro h
      exact hb (Subtype.ext h.symm)
    · intro h; exact absurd (Finset.mem_univ _) h
  have hI : Chains.Irreducible P := by
    refine ⟨hP0, fun x => ?_, fun x y => ?_⟩
    · have := hPg x (fun _ => 1)
      simp only [mul_one] at this
      rw [this, Finset.sum_attach (steps N) (fun s => stepProb N rate x.1 s), sum_stepProb hU x.2]
    · have hstep : ∀ a b : S, (∃ s ∈ steps N, 0 < stepProb N rate a.1 s ∧ b.1 = after a.1 s) → 0 < P a b := by
        rintro a b ⟨s, hs, hp, hb⟩
        refine Finset.sum_pos' (fun s hs => by split_ifs; exacts [stepProb_nonneg hU a.2 hs, le_rfl]) ⟨s, hs, ?_⟩
        rw [if_pos hb.symm]; exact hp
      have key : ∀ b, Relation.ReflTransGen (fun a b => ∃ s ∈ steps N, 0 < stepProb N rate a s ∧ b = after a s) x.1 b →
          ∃ hb : N.InRange b, Relation.ReflTransGen (fun x y => 0 < P x y) x ⟨b, hb⟩ := by
        intro b h
        induction h with
        | refl => exact ⟨x.2, .refl⟩
        | @tail b₁ b₂ _ hab ih =>
          obtain ⟨ha, ih⟩ := ih
          have hb : N.InRange b₂ := by obtain ⟨s, hs, -, rfl⟩ := hab; exact hU.closed _ ha s hs
          exact ⟨hb, ih.tail (hstep ⟨_, ha⟩ ⟨_, hb⟩ hab)⟩
      exact (key y.1 (hconn x.1 y.1 x.2 y.2)).2
  obtain ⟨g, c, hg⟩ := Chains.poisson (S := S) hI z (fun x => f x.1)
  let G : List Nat → ℝ := fun vals => if h : N.InRange vals then g ⟨vals, h⟩ else 0
  have hG : ∀ x : S, G x.1 = g x := fun x => dif_pos x.2
  refine ⟨G, c, fun vals hr => ?_, fun h0 h1 => ?_⟩
  · rw [hg ⟨vals, hr⟩, hPg, hG ⟨vals, hr⟩]
    congr 2
    unfold next
    rw [← Finset.sum_attach (steps N)]
    exact Finset.sum_congr rfl (fun s _ => by rw [hG ⟨after vals s.1, hU.closed vals hr s.1 s.2⟩])
  · obtain ⟨vals, hr, hp⟩ := h1
    exact Chains.poisson_pos hI hg (fun x => h0 x.1 x.2) (x := ⟨vals, hr⟩) hp

end

/-! ## Bounded means -/

section
variable (hU : Usable N rate)
include hU

theorem abs_next_le {g : List Nat → ℝ} {K : ℝ} (hg : ∀ vals, N.InRange vals → |g vals| ≤ K) {vals : List Nat} (hr : N.InRange vals) : |next N rate g vals| ≤ K := by
  unfold next
  refine (Finset.abs_sum_le_sum_abs _ _).trans ?_
  calc _ ≤ ∑ s ∈ steps N, stepProb N rate vals s * K := Finset.sum_le_sum (fun s hs => by
          rw [abs_mul, abs_of_nonneg (stepProb_nonneg hU hr hs)]
          exact mul_le_mul_of_nonneg_left (hg _ (hU.closed vals hr s hs)) (stepProb_nonneg hU hr hs))
    _ = K := by rw [← Finset.sum_mul, sum_stepProb hU hr, one_mul]

/-- If the mean of the increment is `g - next g`, the means of the sums are bounded. -/
theorem meanTotal_bounded {e : Increment} {A : ℝ} (he : Tame N e A) {g : List Nat → ℝ} {K : ℝ} (hg : ∀ vals, N.InRange vals → |g vals| ≤ K)
    (hint : ∀ vals, N.InRange vals → ∀ s ∈ steps N, ∀ t, Integrable (fun a => e vals t s a) (expMeasure (totalRate N rate vals)))
    (hmean : ∀ vals, N.InRange vals → ∀ t, ∑ s ∈ steps N, stepProb N rate vals s * ∫ a, e vals t s a ∂expMeasure (totalRate N rate vals)
      = g vals - next N rate g vals) (n : Nat) {vals : List Nat} (hr : N.InRange vals) (t : ℝ) : |meanTotal N rate e n vals t| ≤ 2 * K := by
  have key : ∃ q : List Nat → ℝ, (∀ vals, N.InRange vals → |q vals| ≤ K) ∧ ∀ vals, N.InRange vals → ∀ t, meanTotal N rate e n vals t = g vals - q vals := by
    induction n with
    | zero => exact ⟨g, hg, fun vals _ t => by rw [meanTotal_zero, sub_self]⟩
    | succ n ih =>
      obtain ⟨q, h1, h2⟩ := ih
      refine ⟨next N rate q, fun vals hr => abs_next_le hU h1 hr, fun vals hr t => ?_⟩
      have hP := isProbabilityMeasure_expMeasure (hU.pos vals hr)
      rw [meanTotal_succ hU he n hr]
      have e1 : ∀ s ∈ steps N, stepProb N rate vals s * ∫ a, (e vals t s a + meanTotal N rate e n (after vals s) (t + a)) ∂expMeasure (totalRate N rate vals)
          = stepProb N rate vals s * ∫ a, e vals t s a ∂expMeasure (totalRate N rate vals)
            + (stepProb N rate vals s * g (after vals s) - stepProb N rate vals s * q (after vals s)) := by
        intro s hs
        have hr' := hU.closed vals hr s hs
        simp only [h2 _ hr']
        rw [integral_add (hint vals hr s hs t) (integrable_const _), integral_const]
        simp only [probReal_univ, one_smul]
        ring
      rw [Finset.sum_congr rfl e1, Finset.sum_add_distrib, hmean vals hr t, Finset.sum_sub_distrib]
      unfold next
      ring
  obtain ⟨q, h1, h2⟩ := key
  rw [h2 vals hr t]
  calc |g vals - q vals| ≤ |g vals| + |q vals| := abs_sub _ _
    _ ≤ 2 * K := by have := hg vals hr; have := h1 vals hr; linarith

end

end

end PyCTBN.JumpPaths
