import Verif.Lemmas.PathMoments

/-!
# Exponential tails of sums along the path of a jump process

If the mean of a sum of increments is bounded whatever the number of steps, small exponential moments of the sum grow at most like `exp (B θ² n)`.
-/

open MeasureTheory ProbabilityTheory Finset
open scoped ENNReal

namespace PyCTBN.JumpPaths
open Spec

noncomputable section

theorem exp_le_quadratic (x : ℝ) : Real.exp x ≤ 1 + x + x ^ 2 * Real.exp |x| := by
  have h0 : 1 ≤ Real.exp |x| := Real.one_le_exp (abs_nonneg x)
  rcases le_or_gt |x| 1 with h | h
  · have h1 := (abs_le.1 (Real.abs_exp_sub_one_sub_id_le h)).2
    nlinarith [sq_nonneg x]
  · rcases le_or_gt 0 x with hx | hx
    · rw [abs_of_nonneg hx] at h ⊢
      have : Real.exp x ≤ x ^ 2 * Real.exp x := le_mul_of_one_le_left (Real.exp_pos x).le (by nlinarith)
      linarith
    · rw [abs_of_neg hx] at h
      have h1 : Real.exp x ≤ 1 := Real.exp_le_one_iff.2 hx.le
      nlinarith [sq_nonneg x]

theorem sq_le_exp (x : ℝ) : x ^ 2 ≤ 2 * Real.exp |x| := by
  have := Real.pow_div_factorial_le_exp |x| (abs_nonneg x) 2
  rw [sq_abs] at this
  simp [Nat.factorial] at this
  linarith

/-- The exponential moments of an exponential clock. -/
theorem exp_mgf {ρ γ : ℝ} (h : 0 < ρ) (hγ : γ < ρ) : Integrable (fun x : ℝ => Real.exp (γ * |x|)) (expMeasure ρ) ∧
    ∫ x, Real.exp (γ * |x|) ∂expMeasure ρ = ρ / (ρ - γ) := by
  have key : ∫ x, Real.exp (γ * |x|) ∂expMeasure ρ = ρ / (ρ - γ) := by
    unfold expMeasure gammaMeasure
    rw [integral_withDensity_eq_integral_toReal_smul]
    · have e : ∀ x : ℝ, (gammaPDF 1 ρ x).toReal • Real.exp (γ * |x|) = (Set.Ici (0 : ℝ)).indicator (fun x => ρ * (x ^ ((1 : ℝ) - 1) * Real.exp (-((ρ - γ) * x)))) x := by
        intro x
        rw [show gammaPDF 1 ρ x = exponentialPDF ρ x from rfl, exponentialPDF_eq]
        by_cases hx : 0 ≤ x
        · rw [if_pos hx, Set.indicator_of_mem (by exact hx), ENNReal.toReal_ofReal (by positivity), smul_eq_mul, abs_of_nonneg hx, sub_self, Real.rpow_zero,
            one_mul, mul_assoc, ← Real.exp_add]
          congr 2
          ring
        · rw [if_neg hx, Set.indicator_of_notMem (by exact hx)]; simp
      simp_rw [e]
      rw [integral_indicator measurableSet_Ici, integral_Ici_eq_integral_Ioi, integral_const_mul,
        Real.integral_rpow_mul_exp_neg_mul_Ioi one_pos (sub_pos.2 hγ), Real.rpow_one, Real.Gamma_one, mul_one, mul_one_div]
    · exact (measurable_gammaPDFReal 1 ρ).ennreal_ofReal
    · exact ae_of_all _ (fun x => ENNReal.ofReal_lt_top)
  refine ⟨?_, key⟩
  by_contra hn
  rw [integral_undef hn] at key
  have : 0 < ρ / (ρ - γ) := div_pos h (sub_pos.2 hγ)
  linarith

section
variable {N : Ctbn} {rate : Rates} (hU : Usable N rate)
include hU

theorem integrable_first {n : Nat} {vals : List Nat} (hr : N.InRange vals) {F : (Fin (n + 1) → Step) → (Fin (n + 1) → ℝ) → ℝ}
    (hF : ∀ σ ∈ paths N (n + 1), Integrable (F σ) (clocks N rate σ vals)) {s : Step} (hs : s ∈ steps N) :
    Integrable (fun a => expect N rate n (after vals s) (fun σ h => F (Fin.cons s σ) (Fin.cons a h))) (expMeasure (totalRate N rate vals)) := by
  unfold expect
  exact integrable_finsetSum _ (fun σ hσ => ((clocks_cons hU hr hs hσ (hF _ (mem_paths_cons hs hσ))).1.const_mul _))

theorem expect_mono {n : Nat} {vals : List Nat} (hr : N.InRange vals) {F G : (Fin n → Step) → (Fin n → ℝ) → ℝ} (hF : ∀ σ h, 0 ≤ F σ h)
    (hG : ∀ σ ∈ paths N n, Integrable (G σ) (clocks N rate σ vals)) (h : ∀ σ ∈ paths N n, ∀ x, F σ x ≤ G σ x) :
    expect N rate n vals F ≤ expect N rate n vals G :=
  Finset.sum_le_sum (fun σ hσ => mul_le_mul_of_nonneg_left
    (integral_mono_of_nonneg (.of_forall (hF σ)) (hG σ hσ) (.of_forall (h σ hσ))) (pathProb_nonneg hU hr hσ))

theorem ratesAlong_ge {Rm : ℝ} (hle : ∀ vals, N.InRange vals → Rm ≤ totalRate N rate vals) {n : Nat} : ∀ {σ : Fin n → Step}, σ ∈ paths N n →
    ∀ {vals : List Nat}, N.InRange vals → ∀ i, Rm ≤ ratesAlong N rate σ vals i := by
  induction n with
  | zero => intro σ _ vals _ i; exact i.elim0
  | succ n ih =>
    intro σ hσ vals hr i
    obtain ⟨h1, h2⟩ := mem_paths_tail hσ
    refine Fin.cases ?_ (fun j => ?_) i
    · exact hle vals hr
    · exact ih h2 (hU.closed vals hr _ h1) j

theorem integrable_exp_of_le {n : Nat} {σ : Fin n → Step} (hσ : σ ∈ paths N n) {vals : List Nat} (hr : N.InRange vals) {A Rm θ : ℝ}
    (hle : ∀ vals, N.InRange vals → Rm ≤ totalRate N rate vals) (hθ : |θ| * A < Rm) {f : (Fin n → ℝ) → ℝ} (hf : Measurable f) (hb : ∀ h, |f h| ≤ ∑ i, A * (1 + |h i|)) :
    Integrable (fun h => Real.exp (θ * f h)) (clocks N rate σ vals) := by
  have hP := clocks_prob hU hr hσ
  have hI : Integrable (fun h : Fin n → ℝ => ∏ i, (Real.exp (|θ| * A) * Real.exp (|θ| * A * |h i|))) (clocks N rate σ vals) := by
    refine Integrable.fintype_prod (f := fun _ x => Real.exp (|θ| * A) * Real.exp (|θ| * A * |x|)) (fun i => ?_)
    refine Integrable.const_mul (exp_mgf (ratesAlong_pos hU hr hσ i) (hθ.trans_le ?_)).1 _
    exact ratesAlong_ge hU hle hσ hr i
  refine hI.mono' (Real.measurable_exp.comp (hf.const_mul θ)).aestronglyMeasurable (.of_forall (fun h => ?_))
  rw [Real.norm_eq_abs, Real.abs_exp]
  simp only [← Real.exp_add]
  rw [← Real.exp_sum]
  refine Real.exp_le_exp.2 ((le_abs_self _).trans ?_)
  rw [abs_mul]
  refine (mul_le_mul_of_nonneg_left (hb h) (abs_nonneg θ)).trans (le_of_eq ?_)
  rw [Finset.mul_sum]
  exact Finset.sum_congr rfl (fun i _ => by ring)

/-- One step: the exponential moment of something with linear growth is that of its mean, up to a quadratic term. -/
theorem step_exp {vals : List Nat} (hr : N.InRange vals) {Rm A : ℝ} (hRm : 0 < Rm) (hA : 0 < A) (hle : Rm ≤ totalRate N rate vals) {X : Step → ℝ → ℝ} {m : ℝ}
    (hX : ∀ s ∈ steps N, Integrable (X s) (expMeasure (totalRate N rate vals)))
    (hm : ∑ s ∈ steps N, stepProb N rate vals s * ∫ a, X s a ∂expMeasure (totalRate N rate vals) = m)
    (hb : ∀ s ∈ steps N, ∀ a, |X s a - m| ≤ A * (1 + |a|)) {θ : ℝ} (hθ : |θ| ≤ Rm / (4 * A)) :
    ∀ F : Step → ℝ → ℝ, (∀ s ∈ steps N, ∀ a, 0 ≤ F s a) → (∀ s ∈ steps N, ∀ a, F s a ≤ Real.exp (θ * X s a)) →
    ∑ s ∈ steps N, stepProb N rate vals s * ∫ a, F s a ∂expMeasure (totalRate N rate vals)
      ≤ Real.exp (θ * m + 64 * A ^ 2 / Rm ^ 2 * Real.exp (Rm / 2) * θ ^ 2) := by
  intro F hF0 hF
  set R := totalRate N rate vals with hR
  have hR0 : 0 < R := hU.pos vals hr
  have hP := isProbabilityMeasure_expMeasure hR0
  set θ₀ := Rm / (4 * A) with hθ₀
  have hθ₀p : 0 < θ₀ := by positivity
  have hθA : 2 * θ₀ * A = Rm / 2 := by rw [hθ₀]; field_simp; ring
  obtain ⟨hgi, hgv⟩ := exp_mgf hR0 (show Rm / 2 < R by linarith)
  set G : ℝ → ℝ := fun a => 2 / θ₀ ^ 2 * Real.exp (Rm / 2) * Real.exp (Rm / 2 * |a|) with hG
  have hGi : Integrable G (expMeasure R) := hgi.const_mul _
  have hGv : ∫ a, G a ∂expMeasure R ≤ 64 * A ^ 2 / Rm ^ 2 * Real.exp (Rm / 2) := by
    rw [hG, integral_const_mul, hgv]
    have h1 : R / (R - Rm / 2) ≤ 2 := by rw [div_le_iff₀ (by linarith)]; linarith
    have h2 : 64 * A ^ 2 / Rm ^ 2 * Real.exp (Rm / 2) = 2 / θ₀ ^ 2 * Real.exp (Rm / 2) * 2 := by rw [hθ₀]; field_simp; ring
    rw [h2]
    exact mul_le_mul_of_nonneg_left h1 (by positivity)
  have hpt : ∀ s ∈ steps N, ∀ a, F s a ≤ Real.exp (θ * m) * (1 + θ * (X s a - m) + θ ^ 2 * G a) := by
    intro s hs a
    refine (hF s hs a).trans ?_
    have e : Real.exp (θ * X s a) = Real.exp (θ * m) * Real.exp (θ * (X s a - m)) := by rw [← Real.exp_add]; congr 1; ring
    rw [e]
    refine mul_le_mul_of_nonneg_left ((exp_le_quadratic _).trans ?_) (Real.exp_pos _).le
    have hY : (X s a - m) ^ 2 * Real.exp |θ * (X s a - m)| ≤ G a := by
      have h1 : (X s a - m) ^ 2 ≤ 2 / θ₀ ^ 2 * Real.exp (θ₀ * |X s a - m|) := by
        have := sq_le_exp (θ₀ * (X s a - m))
        rw [mul_pow, abs_mul, abs_of_pos hθ₀p] at this
        rw [div_mul_eq_mul_div, le_div_iff₀ (by positivity)]
        linarith
      have h2 : Real.exp |θ * (X s a - m)| ≤ Real.exp (θ₀ * |X s a - m|) := by
        rw [abs_mul]
        exact Real.exp_le_exp.2 (mul_le_mul_of_nonneg_right hθ (abs_nonneg _))
      calc _ ≤ 2 / θ₀ ^ 2 * Real.exp (θ₀ * |X s a - m|) * Real.exp (θ₀ * |X s a - m|) := mul_le_mul h1 h2 (Real.exp_pos _).le (by positivity)
        _ = 2 / θ₀ ^ 2 * Real.exp (2 * θ₀ * |X s a - m|) := by rw [mul_assoc, ← Real.exp_add]; congr 2; ring
        _ ≤ 2 / θ₀ ^ 2 * Real.exp (Rm / 2 * (1 + |a|)) := by
          refine mul_le_mul_of_nonneg_left (Real.exp_le_exp.2 ?_) (by positivity)
          calc 2 * θ₀ * |X s a - m| ≤ 2 * θ₀ * (A * (1 + |a|)) := mul_le_mul_of_nonneg_left (hb s hs a) (by positivity)
            _ = _ := by rw [← mul_assoc, hθA]
        _ = G a := by rw [hG]; dsimp only; rw [mul_add, mul_one, Real.exp_add, mul_assoc]
    have h3 : (θ * (X s a - m)) ^ 2 * Real.exp |θ * (X s a - m)| ≤ θ ^ 2 * G a := by
      rw [mul_pow, mul_assoc]
      exact mul_le_mul_of_nonneg_left hY (sq_nonneg θ)
    linarith
  have hint : ∀ s ∈ steps N, Integrable (fun a => Real.exp (θ * m) * (1 + θ * (X s a - m) + θ ^ 2 * G a)) (expMeasure R) := fun s hs =>
    (((integrable_const _).add (((hX s hs).sub (integrable_const m)).const_mul θ)).add (hGi.const_mul _)).const_mul _
  have hval : ∀ s ∈ steps N, ∫ a, Real.exp (θ * m) * (1 + θ * (X s a - m) + θ ^ 2 * G a) ∂expMeasure R
      = Real.exp (θ * m) * (1 + θ * (∫ a, X s a ∂expMeasure R - m) + θ ^ 2 * ∫ a, G a ∂expMeasure R) := by
    intro s hs
    have i1 : Integrable (fun a => X s a - m) (expMeasure R) := (hX s hs).sub (integrable_const m)
    have i2 : Integrable (fun a => 1 + θ * (X s a - m)) (expMeasure R) := (integrable_const _).add (i1.const_mul θ)
    rw [integral_const_mul, integral_add i2 (hGi.const_mul _), integral_add (integrable_const _) (i1.const_mul θ), integral_const_mul, integral_const_mul,
      integral_sub (hX s hs) (integrable_const m), integral_const, integral_const]
    simp
  have h1 : ∑ s ∈ steps N, stepProb N rate vals s * ∫ a, F s a ∂expMeasure R
      ≤ ∑ s ∈ steps N, stepProb N rate vals s * (Real.exp (θ * m) * (1 + θ * (∫ a, X s a ∂expMeasure R - m) + θ ^ 2 * ∫ a, G a ∂expMeasure R)) := by
    refine Finset.sum_le_sum (fun s hs => mul_le_mul_of_nonneg_left ?_ (stepProb_nonneg hU hr hs))
    rw [← hval s hs]
    exact integral_mono_of_nonneg (.of_forall (hF0 s hs)) (hint s hs) (.of_forall (hpt s hs))
  have hsum := sum_stepProb hU hr
  have h2 : ∑ s ∈ steps N, stepProb N rate vals s * (Real.exp (θ * m) * (1 + θ * (∫ a, X s a ∂expMeasure R - m) + θ ^ 2 * ∫ a, G a ∂expMeasure R))
      = Real.exp (θ * m) * (1 + θ ^ 2 * ∫ a, G a ∂expMeasure R) := by
    have e : ∀ s ∈ steps N, stepProb N rate vals s * (Real.exp (θ * m) * (1 + θ * (∫ a, X s a ∂expMeasure R - m) + θ ^ 2 * ∫ a, G a ∂expMeasure R))
        = Real.exp (θ * m) * (1 - θ * m + θ ^ 2 * ∫ a, G a ∂expMeasure R) * stepProb N rate vals s
          + Real.exp (θ * m) * θ * (stepProb N rate vals s * ∫ a, X s a ∂expMeasure R) := fun s _ => by ring
    rw [Finset.sum_congr rfl e, Finset.sum_add_distrib, ← Finset.mul_sum, ← Finset.mul_sum, hsum, hm]
    ring
  rw [h2] at h1
  refine h1.trans ?_
  rw [Real.exp_add]
  refine mul_le_mul_of_nonneg_left ?_ (Real.exp_pos _).le
  have h3 := Real.add_one_le_exp (64 * A ^ 2 / Rm ^ 2 * Real.exp (Rm / 2) * θ ^ 2)
  have h4 := mul_le_mul_of_nonneg_left hGv (sq_nonneg θ)
  linarith

/-- If the mean of the sum is bounded whatever the number of steps, small exponential moments grow at most like `exp (B θ² n)`. -/
theorem exp_total {e : Increment} {A : ℝ} (he : Tame N e A) {Rm : ℝ} (hRm : 0 < Rm) (hle : ∀ vals, N.InRange vals → Rm ≤ totalRate N rate vals)
    {C : ℝ} (hC : ∀ n vals, N.InRange vals → ∀ t, |meanTotal N rate e n vals t| ≤ C) {A' B : ℝ} (hA' : A' = A + 2 * C + 1)
    (hB : B = 64 * A' ^ 2 / Rm ^ 2 * Real.exp (Rm / 2)) {θ : ℝ} (hθ : |θ| ≤ Rm / (4 * A')) (n : Nat) :
    ∀ {vals : List Nat}, N.InRange vals → ∀ t, expect N rate n vals (fun σ h => Real.exp (θ * total e σ vals t h))
      ≤ Real.exp (B * θ ^ 2 * n + θ * meanTotal N rate e n vals t) := by
  have hA0 := he.nonneg
  induction n with
  | zero =>
    intro vals hr t
    rw [meanTotal_zero]
    simp only [total, mul_zero, Real.exp_zero]
    rw [expect_const hU hr]
    simp
  | succ n ih =>
    intro vals hr t
    have hC0 : 0 ≤ C := (abs_nonneg _).trans (hC 0 vals hr 0)
    have hA'0 : 0 < A' := by rw [hA']; positivity
    have hsmall : |θ| * A < Rm := by
      have h1 : |θ| * A' ≤ Rm / 4 := by
        calc |θ| * A' ≤ Rm / (4 * A') * A' := mul_le_mul_of_nonneg_right hθ hA'0.le
          _ = Rm / 4 := by field_simp
      have h2 : |θ| * A ≤ |θ| * A' := mul_le_mul_of_nonneg_left (by rw [hA']; linarith) (abs_nonneg θ)
      linarith
    have hexpI : ∀ k {vals : List Nat}, N.InRange vals → ∀ t, ∀ σ ∈ paths N k, Integrable (fun h => Real.exp (θ * total e σ vals t h)) (clocks N rate σ vals) :=
      fun k vals hr t σ hσ => integrable_exp_of_le hU hσ hr hle hsmall (measurable_total' he σ vals t) (abs_total_le hU he hσ hr t)
    rw [expect_succ hU hr (hexpI (n + 1) hr t)]
    set X : Step → ℝ → ℝ := fun s a => e vals t s a + meanTotal N rate e n (after vals s) (t + a) with hXdef
    have hX : ∀ s ∈ steps N, Integrable (X s) (expMeasure (totalRate N rate vals)) := by
      intro s hs
      have hr' := hU.closed vals hr s hs
      refine (integrable_first hU hr (n := n) (F := fun σ h => total e σ vals t h) (fun σ hσ => integrable_total hU he hσ hr t) hs).congr (.of_forall (fun a => ?_))
      dsimp only
      simp only [total_cons]
      rw [expect_add (fun σ hσ => by
        have := clocks_isProb hU hr' hσ
        exact integrable_const _) (fun σ hσ => integrable_total hU he hσ hr' _), expect_const hU hr']
      rfl
    have hm := (meanTotal_succ hU he n hr t).symm
    have hbX : ∀ s ∈ steps N, ∀ a, |X s a - meanTotal N rate e (n + 1) vals t| ≤ A' * (1 + |a|) := by
      intro s hs a
      have h1 := he.bound vals hr s hs t a
      have h2 := hC n _ (hU.closed vals hr s hs) (t + a)
      have h3 := hC (n + 1) vals hr t
      calc _ ≤ |e vals t s a| + |meanTotal N rate e n (after vals s) (t + a)| + |meanTotal N rate e (n + 1) vals t| :=
            (abs_sub _ _).trans (add_le_add (abs_add_le _ _) le_rfl)
        _ ≤ A * (1 + |a|) + C + C := by linarith
        _ ≤ A' * (1 + |a|) := by rw [hA']; nlinarith [abs_nonneg a]
    have hstep := step_exp hU hr hRm hA'0 (hle vals hr) hX hm hbX hθ
      (fun s a => Real.exp (-(B * θ ^ 2 * n)) * expect N rate n (after vals s) (fun σ h => Real.exp (θ * total e (Fin.cons s σ) vals t (Fin.cons a h))))
      (fun s hs a => mul_nonneg (Real.exp_pos _).le (Finset.sum_nonneg (fun σ hσ =>
        mul_nonneg (pathProb_nonneg hU (hU.closed vals hr s hs) hσ) (integral_nonneg (fun h => (Real.exp_pos _).le)))))
      (fun s hs a => by
        have hr' := hU.closed vals hr s hs
        have e1 : expect N rate n (after vals s) (fun σ h => Real.exp (θ * total e (Fin.cons s σ) vals t (Fin.cons a h)))
            = Real.exp (θ * e vals t s a) * expect N rate n (after vals s) (fun σ h => Real.exp (θ * total e σ (after vals s) (t + a) h)) := by
          rw [← expect_smul]
          congr 1
          funext σ h
          rw [total_cons, mul_add, Real.exp_add]
        rw [e1]
        calc _ ≤ Real.exp (-(B * θ ^ 2 * n)) * (Real.exp (θ * e vals t s a) * Real.exp (B * θ ^ 2 * n + θ * meanTotal N rate e n (after vals s) (t + a))) :=
              mul_le_mul_of_nonneg_left (mul_le_mul_of_nonneg_left (ih hr' (t + a)) (Real.exp_pos _).le) (Real.exp_pos _).le
          _ = _ := by
            rw [← Real.exp_add, ← Real.exp_add]
            congr 1
            simp only [hXdef]
            ring)
    rw [← hB] at hstep
    have e2 : ∑ s ∈ steps N, stepProb N rate vals s * ∫ a, Real.exp (-(B * θ ^ 2 * n)) * expect N rate n (after vals s)
          (fun σ h => Real.exp (θ * total e (Fin.cons s σ) vals t (Fin.cons a h))) ∂expMeasure (totalRate N rate vals)
        = Real.exp (-(B * θ ^ 2 * n)) * ∑ s ∈ steps N, stepProb N rate vals s * ∫ a, expect N rate n (after vals s)
          (fun σ h => Real.exp (θ * total e (Fin.cons s σ) vals t (Fin.cons a h))) ∂expMeasure (totalRate N rate vals) := by
      rw [Finset.mul_sum]
      refine Finset.sum_congr rfl (fun s _ => ?_)
      rw [integral_const_mul]
      ring
    rw [e2, Real.exp_neg, inv_mul_le_iff₀ (Real.exp_pos _), ← Real.exp_add] at hstep
    refine hstep.trans (le_of_eq ?_)
    congr 1
    push_cast
    ring

/-- The sum of the increments after the first `m` steps. -/
def restTotal (e : Increment) : Nat → {n : Nat} → (Fin n → Step) → List Nat → ℝ → (Fin n → ℝ) → ℝ
  | 0, _, σ, vals, t, h => total e σ vals t h
  | _ + 1, 0, _, _, _, _ => 0
  | m + 1, _ + 1, σ, vals, t, h => restTotal e m (Fin.tail σ) (after vals (σ 0)) (t + h 0) (Fin.tail h)

omit hU in
theorem measurable_rest {e : Increment} {A : ℝ} (he : Tame N e A) : ∀ (m : Nat) {n : Nat} (σ : Fin n → Step) (vals : List Nat),
    Measurable (fun p : ℝ × (Fin n → ℝ) => restTotal e m σ vals p.1 p.2) := by
  intro m
  induction m with
  | zero => intro n σ vals; simp only [restTotal]; exact measurable_total he σ vals
  | succ m ih =>
    intro n σ vals
    cases n with
    | zero => simp only [restTotal]; exact measurable_const
    | succ n =>
      simp only [restTotal]
      have h0 : Measurable (fun p : ℝ × (Fin (n + 1) → ℝ) => p.2 0) := (measurable_pi_apply 0).comp measurable_snd
      refine (ih (Fin.tail σ) (after vals (σ 0))).comp ((measurable_fst.add h0).prodMk ?_)
      exact measurable_pi_lambda _ (fun i => (measurable_pi_apply i.succ).comp measurable_snd)

theorem abs_rest_le {e : Increment} {A : ℝ} (he : Tame N e A) : ∀ (m : Nat) {n : Nat} {σ : Fin n → Step}, σ ∈ paths N n → ∀ {vals : List Nat}, N.InRange vals →
    ∀ (t : ℝ) (h : Fin n → ℝ), |restTotal e m σ vals t h| ≤ ∑ i, A * (1 + |h i|) := by
  intro m
  induction m with
  | zero => intro n σ hσ vals hr t h; exact abs_total_le hU he hσ hr t h
  | succ m ih =>
    intro n σ hσ vals hr t h
    cases n with
    | zero => simp [restTotal]
    | succ n =>
      obtain ⟨h1, h2⟩ := mem_paths_tail hσ
      rw [restTotal, Fin.sum_univ_succ]
      refine (ih h2 (hU.closed vals hr _ h1) _ _).trans (le_add_of_nonneg_left ?_)
      have := he.nonneg
      positivity

theorem exp_rest {e : Increment} {A : ℝ} (he : Tame N e A) {Rm : ℝ} (hle : ∀ vals, N.InRange vals → Rm ≤ totalRate N rate vals) {θ : ℝ} (hθ : |θ| * A < Rm)
    {D : ℝ} {k : Nat} (hD : ∀ {vals : List Nat}, N.InRange vals → ∀ t, expect N rate k vals (fun σ h => Real.exp (θ * total e σ vals t h)) ≤ D) (m : Nat) :
    ∀ {vals : List Nat}, N.InRange vals → ∀ t, expect N rate (k + m) vals (fun σ h => Real.exp (θ * restTotal e m σ vals t h)) ≤ D := by
  induction m with
  | zero => intro vals hr t; exact hD hr t
  | succ m ih =>
    intro vals hr t
    have hexpI : ∀ σ ∈ paths N (k + m + 1), Integrable (fun h => Real.exp (θ * restTotal e (m + 1) σ vals t h)) (clocks N rate σ vals) :=
      fun σ hσ => integrable_exp_of_le hU hσ hr hle hθ ((measurable_rest he (m + 1) σ vals).comp measurable_prodMk_left) (abs_rest_le hU he (m + 1) hσ hr t)
    have hP := isProbabilityMeasure_expMeasure (hU.pos vals hr)
    refine (expect_succ hU hr hexpI).le.trans ?_
    calc _ ≤ ∑ s ∈ steps N, stepProb N rate vals s * D := Finset.sum_le_sum (fun s hs => by
          have hr' := hU.closed vals hr s hs
          refine mul_le_mul_of_nonneg_left ?_ (stepProb_nonneg hU hr hs)
          have : ∫ a, expect N rate (k + m) (after vals s) (fun σ h => Real.exp (θ * restTotal e (m + 1) (Fin.cons s σ : Fin (k + m + 1) → Step) vals t (Fin.cons a h)))
              ∂expMeasure (totalRate N rate vals) ≤ ∫ _, D ∂expMeasure (totalRate N rate vals) := by
            refine integral_mono_of_nonneg (.of_forall (fun a => Finset.sum_nonneg (fun σ hσ =>
              mul_nonneg (pathProb_nonneg hU hr' hσ) (integral_nonneg (fun h => (Real.exp_pos _).le))))) (integrable_const _) (.of_forall (fun a => ?_))
            have := ih hr' (t + a)
            simpa only [restTotal, Fin.tail_cons, Fin.cons_zero] using this
          refine this.trans (le_of_eq ?_)
          rw [integral_const]
          simp)
      _ = D := by rw [← Finset.sum_mul, sum_stepProb hU hr, one_mul]

end

end

end PyCTBN.JumpPaths
