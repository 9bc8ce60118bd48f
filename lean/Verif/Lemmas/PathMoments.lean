import Verif.Lemmas.PathLaw

/-!
# Moments of sums along the path of a jump process

A sum of increments that depend on the joint state, the time, the step and the holding time.  If the mean of the sum is bounded whatever the number of
steps, its second moment grows at most linearly.
-/

open MeasureTheory ProbabilityTheory Finset
open scoped ENNReal

namespace PyCTBN.JumpPaths
open Spec

noncomputable section

/-! ## Splitting off the first clock -/

theorem pi_cons {n : Nat} {μ : Fin (n + 1) → Measure ℝ} [∀ i, IsProbabilityMeasure (μ i)] {F : (Fin (n + 1) → ℝ) → ℝ} (hF : Integrable F (Measure.pi μ)) :
    Integrable (fun a => ∫ h, F (Fin.cons a h) ∂Measure.pi (fun i : Fin n => μ i.succ)) (μ 0) ∧
    (∀ᵐ a ∂μ 0, Integrable (fun h => F (Fin.cons a h)) (Measure.pi (fun i : Fin n => μ i.succ))) ∧
    ∫ h, F h ∂Measure.pi μ = ∫ a, ∫ h, F (Fin.cons a h) ∂Measure.pi (fun i : Fin n => μ i.succ) ∂μ 0 := by
  have hp := (measurePreserving_piFinSuccAbove μ 0).symm
  have e : ∀ p : ℝ × (Fin n → ℝ), (MeasurableEquiv.piFinSuccAbove (fun _ : Fin (n + 1) => ℝ) 0).symm p = Fin.cons p.1 p.2 := by
    intro p
    funext i
    refine Fin.cases ?_ (fun j => ?_) i
    · rfl
    · rfl
  have hI : Integrable (fun p : ℝ × (Fin n → ℝ) => F (Fin.cons p.1 p.2)) ((μ 0).prod (Measure.pi (fun i : Fin n => μ i.succ))) := by
    have := hp.integrable_comp_of_integrable hF
    refine this.congr (.of_forall (fun p => ?_))
    show F _ = _
    rw [e]
  refine ⟨hI.integral_prod_left, hI.prod_right_ae, ?_⟩
  rw [← integral_prod _ hI]
  have := hp.integral_comp' (g := F)
  rw [← this]
  refine integral_congr_ae (.of_forall (fun p => ?_))
  show F _ = _
  rw [e]

/-! ## Expectations over paths -/

section
variable (N : Ctbn) (rate : Rates)

/-- The law of the holding times given a path. -/
abbrev clocks {n : Nat} (σ : Fin n → Step) (vals : List Nat) : Measure (Fin n → ℝ) := Measure.pi (fun i => expMeasure (ratesAlong N rate σ vals i))

/-- The mean, over the paths from a joint state and the holding times. -/
def expect (n : Nat) (vals : List Nat) (F : (Fin n → Step) → (Fin n → ℝ) → ℝ) : ℝ :=
  ∑ σ ∈ paths N n, pathProb N rate σ vals * ∫ h, F σ h ∂clocks N rate σ vals

variable {N rate} (hU : Usable N rate)

theorem mem_paths_cons {n : Nat} {s : Step} (hs : s ∈ steps N) {σ : Fin n → Step} (hσ : σ ∈ paths N n) : Fin.cons s σ ∈ paths N (n + 1) := by
  simp only [paths, Fintype.mem_piFinset] at hσ ⊢
  intro i
  refine Fin.cases ?_ (fun j => ?_) i
  · simpa using hs
  · simpa using hσ j

theorem mem_paths_tail {n : Nat} {σ : Fin (n + 1) → Step} (hσ : σ ∈ paths N (n + 1)) : σ 0 ∈ steps N ∧ Fin.tail σ ∈ paths N n := by
  simp only [paths, Fintype.mem_piFinset] at hσ ⊢
  exact ⟨hσ 0, fun i => hσ i.succ⟩

include hU

theorem clocks_prob {n : Nat} {vals : List Nat} (hr : N.InRange vals) {σ : Fin n → Step} (hσ : σ ∈ paths N n) (i : Fin n) :
    IsProbabilityMeasure (expMeasure (ratesAlong N rate σ vals i)) := isProbabilityMeasure_expMeasure (ratesAlong_pos hU hr hσ i)

theorem clocks_isProb {n : Nat} {vals : List Nat} (hr : N.InRange vals) {σ : Fin n → Step} (hσ : σ ∈ paths N n) :
    IsProbabilityMeasure (clocks N rate σ vals) := by
  have := clocks_prob hU hr hσ
  infer_instance

theorem clocks_cons {n : Nat} {vals : List Nat} (hr : N.InRange vals) {s : Step} (hs : s ∈ steps N) {σ : Fin n → Step} (hσ : σ ∈ paths N n)
    {F : (Fin (n + 1) → ℝ) → ℝ} (hF : Integrable F (clocks N rate (Fin.cons s σ) vals)) :
    Integrable (fun a => ∫ h, F (Fin.cons a h) ∂clocks N rate σ (after vals s)) (expMeasure (totalRate N rate vals)) ∧
    (∀ᵐ a ∂expMeasure (totalRate N rate vals), Integrable (fun h => F (Fin.cons a h)) (clocks N rate σ (after vals s))) ∧
    ∫ h, F h ∂clocks N rate (Fin.cons s σ) vals = ∫ a, ∫ h, F (Fin.cons a h) ∂clocks N rate σ (after vals s) ∂expMeasure (totalRate N rate vals) := by
  have hP := clocks_prob hU hr (mem_paths_cons hs hσ)
  have h := pi_cons hF
  have e0 : ratesAlong N rate (Fin.cons s σ) vals 0 = totalRate N rate vals := by
    show along _ _ _ 0 = _
    rw [along_cons, Fin.cons_zero]
  have e1 : ∀ i : Fin n, ratesAlong N rate (Fin.cons s σ) vals i.succ = ratesAlong N rate σ (after vals s) i := by
    intro i
    show along _ _ _ i.succ = _
    rw [along_cons, Fin.cons_succ]
  simp only [e0, e1] at h
  exact h

theorem expect_succ {n : Nat} {vals : List Nat} (hr : N.InRange vals) {F : (Fin (n + 1) → Step) → (Fin (n + 1) → ℝ) → ℝ}
    (hF : ∀ σ ∈ paths N (n + 1), Integrable (F σ) (clocks N rate σ vals)) :
    expect N rate (n + 1) vals F = ∑ s ∈ steps N, stepProb N rate vals s *
      ∫ a, expect N rate n (after vals s) (fun σ h => F (Fin.cons s σ) (Fin.cons a h)) ∂expMeasure (totalRate N rate vals) := by
  unfold expect
  rw [sum_paths_succ]
  refine Finset.sum_congr rfl (fun s hs => ?_)
  rw [integral_finsetSum _ (fun σ hσ => ((clocks_cons hU hr hs hσ (hF _ (mem_paths_cons hs hσ))).1.const_mul _)), Finset.mul_sum]
  refine Finset.sum_congr rfl (fun σ hσ => ?_)
  rw [(clocks_cons hU hr hs hσ (hF _ (mem_paths_cons hs hσ))).2.2, pathProb_cons, integral_const_mul]
  ring

omit hU in
theorem expect_add {n : Nat} {vals : List Nat} {F G : (Fin n → Step) → (Fin n → ℝ) → ℝ}
    (hF : ∀ σ ∈ paths N n, Integrable (F σ) (clocks N rate σ vals)) (hG : ∀ σ ∈ paths N n, Integrable (G σ) (clocks N rate σ vals)) :
    expect N rate n vals (fun σ h => F σ h + G σ h) = expect N rate n vals F + expect N rate n vals G := by
  unfold expect
  rw [← Finset.sum_add_distrib]
  refine Finset.sum_congr rfl (fun σ hσ => ?_)
  rw [integral_add (hF σ hσ) (hG σ hσ), mul_add]

omit hU in
theorem expect_smul {n : Nat} {vals : List Nat} {F : (Fin n → Step) → (Fin n → ℝ) → ℝ} (c : ℝ) :
    expect N rate n vals (fun σ h => c * F σ h) = c * expect N rate n vals F := by
  unfold expect
  rw [Finset.mul_sum]
  refine Finset.sum_congr rfl (fun σ hσ => ?_)
  rw [integral_const_mul]
  ring

theorem expect_const {n : Nat} {vals : List Nat} (hr : N.InRange vals) (c : ℝ) : expect N rate n vals (fun _ _ => c) = c := by
  unfold expect
  have : ∀ σ ∈ paths N n, pathProb N rate σ vals * ∫ _, c ∂clocks N rate σ vals = pathProb N rate σ vals * c := by
    intro σ hσ
    have := clocks_isProb hU hr hσ
    rw [integral_const]
    simp
  rw [Finset.sum_congr rfl this, ← Finset.sum_mul, sum_pathProb hU n hr, one_mul]

end

/-! ## Sums of increments -/

/-- An increment: a function of the joint state, the time, the step and the holding time. -/
abbrev Increment := List Nat → ℝ → Step → ℝ → ℝ

/-- The sum of the increments along a path, from a joint state and a time. -/
def total (e : Increment) : {n : Nat} → (Fin n → Step) → List Nat → ℝ → (Fin n → ℝ) → ℝ
  | 0, _, _, _, _ => 0
  | _ + 1, σ, vals, t, h => e vals t (σ 0) (h 0) + total e (Fin.tail σ) (after vals (σ 0)) (t + h 0) (Fin.tail h)

theorem total_cons (e : Increment) {n : Nat} (s : Step) (σ : Fin n → Step) (vals : List Nat) (t a : ℝ) (h : Fin n → ℝ) :
    total e (Fin.cons s σ) vals t (Fin.cons a h) = e vals t s a + total e σ (after vals s) (t + a) h := by
  rw [total, Fin.cons_zero, Fin.tail_cons, Fin.cons_zero, Fin.tail_cons]

theorem total_add (e e' : Increment) {n : Nat} : ∀ (σ : Fin n → Step) (vals : List Nat) (t : ℝ) (h : Fin n → ℝ),
    total (fun vals t s a => e vals t s a + e' vals t s a) σ vals t h = total e σ vals t h + total e' σ vals t h := by
  induction n with
  | zero => intros; simp [total]
  | succ n ih => intro σ vals t h; simp only [total, ih]; ring

theorem total_smul (c : ℝ) (e : Increment) {n : Nat} : ∀ (σ : Fin n → Step) (vals : List Nat) (t : ℝ) (h : Fin n → ℝ),
    total (fun vals t s a => c * e vals t s a) σ vals t h = c * total e σ vals t h := by
  induction n with
  | zero => intros; simp [total]
  | succ n ih => intro σ vals t h; simp only [total, ih]; ring

section
variable (N : Ctbn) (rate : Rates)

/-- Measurable increments that grow at most linearly with the holding time. -/
structure Tame (e : Increment) (A : ℝ) : Prop where
  nonneg : 0 ≤ A
  meas : ∀ vals s, Measurable (fun p : ℝ × ℝ => e vals p.1 s p.2)
  bound : ∀ vals, N.InRange vals → ∀ s ∈ steps N, ∀ t a, |e vals t s a| ≤ A * (1 + |a|)

variable {N rate}

theorem Tame.add {e e' : Increment} {A A' : ℝ} (h : Tame N e A) (h' : Tame N e' A') : Tame N (fun vals t s a => e vals t s a + e' vals t s a) (A + A') where
  nonneg := add_nonneg h.nonneg h'.nonneg
  meas vals s := (h.meas vals s).add (h'.meas vals s)
  bound vals hr s hs t a := by
    rw [add_mul]
    exact (abs_add_le _ _).trans (add_le_add (h.bound vals hr s hs t a) (h'.bound vals hr s hs t a))

theorem measurable_total {e : Increment} {A : ℝ} (he : Tame N e A) {n : Nat} : ∀ (σ : Fin n → Step) (vals : List Nat),
    Measurable (fun p : ℝ × (Fin n → ℝ) => total e σ vals p.1 p.2) := by
  induction n with
  | zero => intro σ vals; simp only [total]; exact measurable_const
  | succ n ih =>
    intro σ vals
    simp only [total]
    have h0 : Measurable (fun p : ℝ × (Fin (n + 1) → ℝ) => p.2 0) := (measurable_pi_apply 0).comp measurable_snd
    refine ((he.meas vals (σ 0)).comp (measurable_fst.prodMk h0)).add ?_
    refine (ih (Fin.tail σ) (after vals (σ 0))).comp ((measurable_fst.add h0).prodMk ?_)
    exact measurable_pi_lambda _ (fun i => (measurable_pi_apply i.succ).comp measurable_snd)

theorem measurable_total' {e : Increment} {A : ℝ} (he : Tame N e A) {n : Nat} (σ : Fin n → Step) (vals : List Nat) (t : ℝ) :
    Measurable (total e σ vals t) := (measurable_total he σ vals).comp measurable_prodMk_left

variable (hU : Usable N rate)
include hU

theorem abs_total_le {e : Increment} {A : ℝ} (he : Tame N e A) {n : Nat} : ∀ {σ : Fin n → Step}, σ ∈ paths N n → ∀ {vals : List Nat}, N.InRange vals →
    ∀ (t : ℝ) (h : Fin n → ℝ), |total e σ vals t h| ≤ ∑ i, A * (1 + |h i|) := by
  induction n with
  | zero => intro σ _ vals _ t h; simp [total]
  | succ n ih =>
    intro σ hσ vals hr t h
    obtain ⟨h1, h2⟩ := mem_paths_tail hσ
    rw [total, Fin.sum_univ_succ]
    exact (abs_add_le _ _).trans (add_le_add (he.bound vals hr _ h1 t _) (ih h2 (hU.closed vals hr _ h1) _ _))

theorem memLp_total {e : Increment} {A : ℝ} (he : Tame N e A) {n : Nat} {σ : Fin n → Step} (hσ : σ ∈ paths N n) {vals : List Nat} (hr : N.InRange vals) (t : ℝ) :
    MemLp (total e σ vals t) 2 (clocks N rate σ vals) := by
  have hP := clocks_prob hU hr hσ
  have hR := ratesAlong_pos hU hr hσ
  have hsum : MemLp (fun h : Fin n → ℝ => ∑ i, A * (1 + |h i|)) 2 (clocks N rate σ vals) := by
    refine memLp_finsetSum _ (fun i _ => ?_)
    have h1 : MemLp (fun h : Fin n → ℝ => h i) 2 (clocks N rate σ vals) :=
      (Clocks.exp_memLp (hR i)).comp_measurePreserving (measurePreserving_eval _ i)
    exact ((memLp_const (1 : ℝ)).add h1.norm).const_mul A
  refine hsum.mono (measurable_total' he σ vals t).aestronglyMeasurable (.of_forall (fun h => ?_))
  rw [Real.norm_eq_abs, Real.norm_eq_abs]
  exact (abs_total_le hU he hσ hr t h).trans (le_abs_self _)

theorem integrable_total {e : Increment} {A : ℝ} (he : Tame N e A) {n : Nat} {σ : Fin n → Step} (hσ : σ ∈ paths N n) {vals : List Nat} (hr : N.InRange vals) (t : ℝ) :
    Integrable (total e σ vals t) (clocks N rate σ vals) := by
  have := clocks_isProb hU hr hσ
  exact (memLp_total hU he hσ hr t).integrable one_le_two

theorem integrable_total_sq {e : Increment} {A : ℝ} (he : Tame N e A) {n : Nat} {σ : Fin n → Step} (hσ : σ ∈ paths N n) {vals : List Nat} (hr : N.InRange vals) (t : ℝ) :
    Integrable (fun h => total e σ vals t h ^ 2) (clocks N rate σ vals) := (memLp_total hU he hσ hr t).integrable_sq

omit hU in
variable (N rate) in
/-- The mean of the sum of `n` increments. -/
def meanTotal (e : Increment) (n : Nat) (vals : List Nat) (t : ℝ) : ℝ := expect N rate n vals (fun σ h => total e σ vals t h)

omit hU in
theorem meanTotal_zero {e : Increment} {vals : List Nat} (t : ℝ) : meanTotal N rate e 0 vals t = 0 := by
  unfold meanTotal expect
  refine Finset.sum_eq_zero (fun σ _ => ?_)
  simp [total]

theorem meanTotal_succ {e : Increment} {A : ℝ} (he : Tame N e A) (n : Nat) {vals : List Nat} (hr : N.InRange vals) (t : ℝ) :
    meanTotal N rate e (n + 1) vals t = ∑ s ∈ steps N, stepProb N rate vals s *
      ∫ a, (e vals t s a + meanTotal N rate e n (after vals s) (t + a)) ∂expMeasure (totalRate N rate vals) := by
  unfold meanTotal
  rw [expect_succ hU hr (fun σ hσ => integrable_total hU he hσ hr t)]
  refine Finset.sum_congr rfl (fun s hs => ?_)
  have hr' := hU.closed vals hr s hs
  congr 1
  refine integral_congr_ae (.of_forall (fun a => ?_))
  show expect N rate n (after vals s) (fun σ h => total e (Fin.cons s σ) vals t (Fin.cons a h)) = _
  simp only [total_cons]
  rw [expect_add (fun σ hσ => by
      have := clocks_isProb hU hr' hσ
      exact integrable_const _) (fun σ hσ => integrable_total hU he hσ hr' _), expect_const hU hr']

theorem meanTotal_add {e e' : Increment} {A A' : ℝ} (he : Tame N e A) (he' : Tame N e' A') (n : Nat) {vals : List Nat} (hr : N.InRange vals) (t : ℝ) :
    meanTotal N rate (fun vals t s a => e vals t s a + e' vals t s a) n vals t = meanTotal N rate e n vals t + meanTotal N rate e' n vals t := by
  unfold meanTotal
  simp only [total_add]
  exact expect_add (fun σ hσ => integrable_total hU he hσ hr t) (fun σ hσ => integrable_total hU he' hσ hr t)

omit hU in
theorem meanTotal_smul (c : ℝ) {e : Increment} (n : Nat) {vals : List Nat} (t : ℝ) :
    meanTotal N rate (fun vals t s a => c * e vals t s a) n vals t = c * meanTotal N rate e n vals t := by
  unfold meanTotal
  simp only [total_smul]
  exact expect_smul c

theorem integral_increment_sq {e : Increment} {A : ℝ} (he : Tame N e A) {Rm : ℝ} (hRm : 0 < Rm) {vals : List Nat} (hr : N.InRange vals)
    (hle : Rm ≤ totalRate N rate vals) {s : Step} (hs : s ∈ steps N) (t : ℝ) :
    Integrable (fun a => e vals t s a ^ 2) (expMeasure (totalRate N rate vals)) ∧
    ∫ a, e vals t s a ^ 2 ∂expMeasure (totalRate N rate vals) ≤ A ^ 2 * (2 + 4 / Rm ^ 2) := by
  have hR := hU.pos vals hr
  have hP := isProbabilityMeasure_expMeasure hR
  have hI : Integrable (fun a : ℝ => A ^ 2 * (2 + 2 * a ^ 2)) (expMeasure (totalRate N rate vals)) :=
    (((integrable_const (2 : ℝ)).add ((Clocks.exp_pow_integrable hR 2).const_mul 2))).const_mul _
  have hle2 : ∀ a, e vals t s a ^ 2 ≤ A ^ 2 * (2 + 2 * a ^ 2) := by
    intro a
    have h1 := he.bound vals hr s hs t a
    have h2 : e vals t s a ^ 2 ≤ (A * (1 + |a|)) ^ 2 := by
      rw [← sq_abs (e vals t s a)]
      exact pow_le_pow_left₀ (abs_nonneg _) h1 2
    have h3 : (1 + |a|) ^ 2 ≤ 2 + 2 * a ^ 2 := by
      rw [← sq_abs a]
      nlinarith [sq_nonneg (1 - |a|)]
    rw [mul_pow] at h2
    exact h2.trans (mul_le_mul_of_nonneg_left h3 (sq_nonneg A))
  have hm : Measurable (fun a => e vals t s a) := (he.meas vals s).comp measurable_prodMk_left
  have hE : Integrable (fun a => e vals t s a ^ 2) (expMeasure (totalRate N rate vals)) :=
    hI.mono' (hm.pow_const 2).aestronglyMeasurable (.of_forall (fun a => by
      rw [Real.norm_eq_abs, abs_of_nonneg (sq_nonneg _)]; exact hle2 a))
  refine ⟨hE, (integral_mono hE hI hle2).trans ?_⟩
  rw [integral_const_mul, integral_add (integrable_const _) ((Clocks.exp_pow_integrable hR 2).const_mul 2), integral_const_mul, Clocks.exp_moment hR 2]
  refine mul_le_mul_of_nonneg_left ?_ (sq_nonneg A)
  have h4 : (2 : ℝ) / totalRate N rate vals ^ 2 ≤ 2 / Rm ^ 2 := div_le_div_of_nonneg_left (by norm_num) (by positivity) (pow_le_pow_left₀ hRm.le hle 2)
  have e4 : (4 : ℝ) / Rm ^ 2 = 2 * (2 / Rm ^ 2) := by ring
  simp [Nat.factorial]
  linarith

/-- If the mean of the sum is bounded whatever the number of steps, the second moment grows at most linearly. -/
theorem second_moment {e : Increment} {A : ℝ} (he : Tame N e A) {Rm : ℝ} (hRm : 0 < Rm) (hle : ∀ vals, N.InRange vals → Rm ≤ totalRate N rate vals)
    {C : ℝ} (hC : ∀ n vals, N.InRange vals → ∀ t, |meanTotal N rate e n vals t| ≤ C) (n : Nat) :
    ∀ {vals : List Nat}, N.InRange vals → ∀ t, expect N rate n vals (fun σ h => total e σ vals t h ^ 2) ≤ n * ((1 + C) * (A ^ 2 * (2 + 4 / Rm ^ 2)) + C) := by
  induction n with
  | zero =>
    intro vals _ t
    unfold expect
    refine le_of_eq ?_
    rw [Nat.cast_zero, zero_mul]
    exact Finset.sum_eq_zero (fun σ _ => by simp [total])
  | succ n ih =>
    intro vals hr t
    have hC0 : 0 ≤ C := (abs_nonneg _).trans (hC 0 vals hr 0)
    set B := A ^ 2 * (2 + 4 / Rm ^ 2) with hB
    set D := (1 + C) * B + C with hD
    have hR := hU.pos vals hr
    have hP := isProbabilityMeasure_expMeasure hR
    rw [expect_succ hU hr (fun σ hσ => integrable_total_sq hU he hσ hr t)]
    have key : ∀ s ∈ steps N, ∫ a, expect N rate n (after vals s) (fun σ h => total e (Fin.cons s σ) vals t (Fin.cons a h) ^ 2) ∂expMeasure (totalRate N rate vals)
        ≤ (n + 1 : ℕ) * D := by
      intro s hs
      have hr' := hU.closed vals hr s hs
      obtain ⟨hi, hib⟩ := integral_increment_sq hU he hRm hr (hle vals hr) hs t
      have hinner : ∀ a, expect N rate n (after vals s) (fun σ h => total e (Fin.cons s σ) vals t (Fin.cons a h) ^ 2)
          ≤ (1 + C) * e vals t s a ^ 2 + (C + n * D) := by
        intro a
        have e1 : expect N rate n (after vals s) (fun σ h => total e (Fin.cons s σ) vals t (Fin.cons a h) ^ 2)
            = e vals t s a ^ 2 + 2 * e vals t s a * meanTotal N rate e n (after vals s) (t + a)
              + expect N rate n (after vals s) (fun σ h => total e σ (after vals s) (t + a) h ^ 2) := by
          unfold meanTotal
          rw [← expect_smul (2 * e vals t s a), ← expect_const hU hr' (n := n) (e vals t s a ^ 2), ← expect_add (fun σ hσ => by
              have := clocks_isProb hU hr' hσ
              exact integrable_const _) (fun σ hσ => (integrable_total hU he hσ hr' _).const_mul _),
            ← expect_add (fun σ hσ => by
              have := clocks_isProb hU hr' hσ
              exact (integrable_const _).add ((integrable_total hU he hσ hr' _).const_mul _)) (fun σ hσ => integrable_total_sq hU he hσ hr' _)]
          congr 1
          funext σ h
          rw [total_cons]
          ring
        rw [e1]
        have h1 := hC n (after vals s) hr' (t + a)
        have h2 := ih hr' (t + a)
        have h3 : 2 * e vals t s a * meanTotal N rate e n (after vals s) (t + a) ≤ C * (1 + e vals t s a ^ 2) := by
          calc 2 * e vals t s a * meanTotal N rate e n (after vals s) (t + a)
              ≤ |2 * e vals t s a * meanTotal N rate e n (after vals s) (t + a)| := le_abs_self _
            _ = 2 * |e vals t s a| * |meanTotal N rate e n (after vals s) (t + a)| := by rw [abs_mul, abs_mul, abs_two]
            _ ≤ 2 * |e vals t s a| * C := mul_le_mul_of_nonneg_left h1 (by positivity)
            _ ≤ C * (1 + e vals t s a ^ 2) := by
              rw [← sq_abs (e vals t s a)]
              nlinarith [sq_nonneg (1 - |e vals t s a|)]
        linarith
      have hnn : ∀ a, 0 ≤ expect N rate n (after vals s) (fun σ h => total e (Fin.cons s σ) vals t (Fin.cons a h) ^ 2) := fun a =>
        Finset.sum_nonneg (fun σ hσ => mul_nonneg (pathProb_nonneg hU hr' hσ) (integral_nonneg (fun h => sq_nonneg _)))
      have hint : Integrable (fun a => (1 + C) * e vals t s a ^ 2 + (C + n * D)) (expMeasure (totalRate N rate vals)) :=
        (hi.const_mul _).add (integrable_const _)
      refine (integral_mono_of_nonneg (.of_forall hnn) hint (.of_forall hinner)).trans ?_
      rw [integral_add (hi.const_mul _) (integrable_const _), integral_const_mul, integral_const]
      have : (1 + C) * ∫ a, e vals t s a ^ 2 ∂expMeasure (totalRate N rate vals) ≤ (1 + C) * B := mul_le_mul_of_nonneg_left hib (by linarith)
      simp only [probReal_univ, one_smul]
      push_cast
      rw [hD] at *
      linarith
    calc _ ≤ ∑ s ∈ steps N, stepProb N rate vals s * ((n + 1 : ℕ) * D) :=
          Finset.sum_le_sum (fun s hs => mul_le_mul_of_nonneg_left (key s hs) (stepProb_nonneg hU hr hs))
      _ = _ := by rw [← Finset.sum_mul, sum_stepProb hU hr, one_mul]

end

end

end PyCTBN.JumpPaths
