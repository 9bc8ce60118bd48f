import Verif.Spec.FloatScore
import Verif.Lemmas.FamScore
import Verif.Lemmas.Float
import Verif.Props.FloatTest
import Mathlib.Analysis.SpecialFunctions.Gamma.BohrMollerup

/-!
# Lemmas about the score in floating point
-/

namespace PyCTBN
open Spec FamScore

section
variable {u : ℝ}

theorem gam_mono (h0 : 0 ≤ u) (h1 : u < 1) {j k : Nat} (h : j ≤ k) : gam u j ≤ gam u k := by
  unfold gam
  have := pow_le_pow_of_le_one (show 0 ≤ 1 - u by linarith) (show 1 - u ≤ 1 by linarith) h
  have := inv_anti₀ (pow_le_one_sub h0 h1 k).1 this
  linarith

theorem u_le_gam (h0 : 0 ≤ u) (h1 : u < 1) : u ≤ gam u 1 := by
  unfold gam
  rw [pow_one]
  have : 0 < 1 - u := by linarith
  have : 1 + u ≤ (1 - u)⁻¹ := by
    rw [← one_div, le_div_iff₀ this]; nlinarith
  linarith

variable {k j : Nat} {A B x y x' y' : ℝ}

theorem Spec.Within.nonneg (h : Within u k A x y) : 0 ≤ A := (abs_nonneg _).trans h.2

theorem Spec.Within.mono (h0 : 0 ≤ u) (h1 : u < 1) (h : Within u k A x y) (hk : k ≤ j) (hA : A ≤ B) : Within u j B x y := by
  refine ⟨h.1.trans ?_, h.2.trans hA⟩
  exact mul_le_mul (gam_mono h0 h1 hk) hA h.nonneg (gam_nonneg h0 h1 j)

theorem Spec.Within.abs_le (h : Within u k A x y) : |x| ≤ (1 + gam u k) * A := by
  have := h.1
  have h2 := h.2
  have h3 : |x| ≤ |x - y| + |y| := by
    have := abs_add_le (x - y) y
    simpa using this
  linarith

/-- Rounding a number known up to `k` errors. -/
theorem Spec.Within.rnd {r : ℝ → ℝ} (h0 : 0 ≤ u) (h1 : u < 1) (hr : Accurate u r) (h : Within u k A x y) : Within u (k + 1) A (r x) y := by
  refine ⟨?_, h.2⟩
  have e1 := hr x
  have e2 := h.abs_le
  have e3 : |x - y| ≤ gam u k * A := h.1
  have e4 : |r x - y| ≤ |r x - x| + |x - y| := by
    have := abs_add_le (r x - x) (x - y)
    simpa using this
  show _ ≤ gam u (k + 1) * A
  have e5 := gam_add (u := u) k 1
  have e6 := u_le_gam h0 h1
  have e7 := gam_nonneg h0 h1 k
  have hA := h.nonneg
  have e8 : u * |x| ≤ gam u 1 * ((1 + gam u k) * A) := mul_le_mul e6 e2 (abs_nonneg _) (gam_nonneg h0 h1 1)
  have e9 : gam u (k + 1) = gam u k + gam u 1 * (1 + gam u k) := by linarith
  rw [e9]
  nlinarith

theorem Spec.Within.add (h0 : 0 ≤ u) (h1 : u < 1) (h : Within u k A x y) (h' : Within u k B x' y') : Within u k (A + B) (x + x') (y + y') := by
  refine ⟨?_, (abs_add_le _ _).trans (add_le_add h.2 h'.2)⟩
  have : x + x' - (y + y') = (x - y) + (x' - y') := by ring
  rw [this, mul_add]
  exact (abs_add_le _ _).trans (add_le_add h.1 h'.1)

theorem Spec.Within.neg (h : Within u k A x y) : Within u k A (-x) (-y) := by
  refine ⟨?_, by rw [abs_neg]; exact h.2⟩
  rw [show -x - -y = -(x - y) by ring, abs_neg]; exact h.1

theorem Spec.Within.sub (h0 : 0 ≤ u) (h1 : u < 1) (h : Within u k A x y) (h' : Within u k B x' y') : Within u k (A + B) (x - x') (y - y') := by
  rw [sub_eq_add_neg, sub_eq_add_neg]; exact h.add h0 h1 h'.neg

theorem Spec.Within.mul (h0 : 0 ≤ u) (h1 : u < 1) (h : Within u j A x y) (h' : Within u k B x' y') : Within u (j + k) (A * B) (x * x') (y * y') := by
  refine ⟨?_, by rw [abs_mul]; exact mul_le_mul h.2 h'.2 (abs_nonneg _) h.nonneg⟩
  show _ ≤ gam u (j + k) * (A * B)
  have e1 : |x - y| ≤ gam u j * A := h.1
  have e2 : |x' - y'| ≤ gam u k * B := h'.1
  have : x * x' - y * y' = (x - y) * x' + y * (x' - y') := by ring
  rw [this]
  refine (abs_add_le _ _).trans ?_
  rw [abs_mul, abs_mul]
  have e3 : |x - y| * |x'| ≤ (gam u j * A) * ((1 + gam u k) * B) := mul_le_mul e1 h'.abs_le (abs_nonneg _) (mul_nonneg (gam_nonneg h0 h1 j) h.nonneg)
  have e4 : |y| * |x' - y'| ≤ A * (gam u k * B) := mul_le_mul h.2 e2 (abs_nonneg _) h.nonneg
  have e5 := gam_add (u := u) j k
  have e6 : gam u (j + k) = gam u j * (1 + gam u k) + gam u k := by linarith
  rw [e6]
  linarith

theorem Near.within (h0 : 0 ≤ u) (h1 : u < 1) (hy : 0 ≤ y) (h : Near u k x y) : Within u k y x y := by
  obtain ⟨θ, a, b, rfl⟩ := h
  refine ⟨?_, by rw [abs_of_nonneg hy]⟩
  rw [show θ * y - y = (θ - 1) * y by ring, abs_mul, abs_of_nonneg hy]
  apply mul_le_mul_of_nonneg_right _ hy
  have p := pow_le_one_sub h0 h1 k
  have hq : 1 - (1 - u) ^ k ≤ ((1 - u) ^ k)⁻¹ - 1 := by
    have : 2 ≤ (1 - u) ^ k + ((1 - u) ^ k)⁻¹ := by
      rw [← sub_nonneg]
      have : (1 - u) ^ k + ((1 - u) ^ k)⁻¹ - 2 = ((1 - u) ^ k - 1) ^ 2 / (1 - u) ^ k := by
        have := p.1.ne'
        field_simp
        ring
      rw [this]
      exact div_nonneg (sq_nonneg _) p.1.le
    linarith
  unfold gam
  rw [_root_.abs_le]
  constructor <;> linarith

theorem within_sum (h0 : 0 ≤ u) (h1 : u < 1) {F : FloatMath} (hr : Accurate u F.rnd) {ι : Type} (f g A : ι → ℝ) :
    ∀ (l : List ι), (∀ i ∈ l, Within u k (A i) (f i) (g i)) → ∀ (j : Nat) (a b C : ℝ), k ≤ j → Within u j C a b →
      Within u (j + l.length) (C + (l.map A).sum) ((l.map f).foldl (fun a w => F.rnd (a + w)) a) (b + (l.map g).sum) := by
  intro l
  induction l with
  | nil => intro _ j a b C _ h; simpa using h
  | cons i l ih =>
    intro hl j a b C hkj h
    have hi := (hl i (by simp)).mono h0 h1 hkj le_rfl
    have := ih (fun i hi => hl i (by simp [hi])) (j + 1) _ _ _ (by omega) ((h.add h0 h1 hi).rnd h0 h1 hr)
    simp only [List.map_cons, List.foldl_cons, List.sum_cons, List.length_cons]
    rw [show j + (l.length + 1) = j + 1 + l.length by omega, ← add_assoc, ← add_assoc]
    exact this

theorem Spec.Within.zero (h0 : 0 ≤ u) (h1 : u < 1) : Within u k 0 0 0 := ⟨by simp, by simp⟩

theorem within_fsum (h0 : 0 ≤ u) (h1 : u < 1) {F : FloatMath} (hr : Accurate u F.rnd) {ι : Type} (f g A : ι → ℝ) (l : List ι)
    (hl : ∀ i ∈ l, Within u k (A i) (f i) (g i)) : Within u (k + l.length) (l.map A).sum (F.sum (l.map f)) (l.map g).sum := by
  have := within_sum h0 h1 hr f g A l hl k 0 0 0 le_rfl (Spec.Within.zero h0 h1)
  simpa [FloatMath.sum] using this

/-! ## Leaves -/

theorem log_near (h0 : 0 ≤ u) (h1 : u < 1) (hy : 0 < y) (h : Near u k x y) : |Real.log x - Real.log y| ≤ gam u k := by
  obtain ⟨θ, a, b, rfl⟩ := h
  have p := pow_le_one_sub h0 h1 k
  have hθ : 0 < θ := p.1.trans_le a
  rw [Real.log_mul hθ.ne' hy.ne', add_sub_cancel_right, _root_.abs_le]
  constructor
  · have h2 := Real.log_le_sub_one_of_pos (inv_pos.2 hθ)
    rw [Real.log_inv] at h2
    have := inv_anti₀ p.1 a
    unfold gam; linarith
  · have h2 := Real.log_le_sub_one_of_pos hθ
    unfold gam; linarith

/-- The difference of two values of `loggamma`, by log-convexity. -/
theorem loggamma_diff {a b : ℝ} (ha : 0 < a) (hab : a ≤ b) :
    (b - a) * Real.log a - Real.log (b / a) ≤ loggamma b - loggamma a ∧ loggamma b - loggamma a ≤ (b - a) * Real.log b := by
  rcases hab.eq_or_lt with rfl | hlt
  · simp [div_self ha.ne']
  have hb : 0 < b := ha.trans hlt
  have hconv := Real.convexOn_log_Gamma
  have hG : ∀ z, 0 < z → loggamma (z + 1) = loggamma z + Real.log z := by
    intro z hz
    unfold loggamma
    rw [Real.Gamma_add_one hz.ne', Real.log_mul hz.ne' (Real.Gamma_pos_of_pos hz).ne']; ring
  constructor
  · -- slope on [a, a+1] ≤ slope on [a+1, b+1]
    have h1 := hconv.slope_mono_adjacent (x := a) (y := a + 1) (z := b + 1) (by simpa using ha) (by simp; linarith) (by linarith) (by linarith)
    simp only [Function.comp] at h1
    have e1 : Real.log (Real.Gamma (a + 1)) = loggamma a + Real.log a := hG a ha
    have e2 : Real.log (Real.Gamma (b + 1)) = loggamma b + Real.log b := hG b hb
    have e3 : Real.log (Real.Gamma a) = loggamma a := rfl
    rw [e1, e2, e3, show a + 1 - a = 1 by ring, div_one, show b + 1 - (a + 1) = b - a by ring,
      le_div_iff₀ (by linarith)] at h1
    rw [Real.log_div hb.ne' ha.ne']
    linarith
  · have h1 := hconv.slope_mono_adjacent (x := a) (y := b) (z := b + 1) (by simpa using ha) (by simp; linarith) hlt (by linarith)
    simp only [Function.comp] at h1
    have e2 : Real.log (Real.Gamma (b + 1)) = loggamma b + Real.log b := hG b hb
    have e3 : Real.log (Real.Gamma a) = loggamma a := rfl
    have e4 : Real.log (Real.Gamma b) = loggamma b := rfl
    rw [e2, e3, e4, show b + 1 - b = 1 by ring, div_one, div_le_iff₀ (by linarith)] at h1
    linarith

theorem loggamma_near (h0 : 0 ≤ u) (h1 : u < 1) (hy : 0 < y) (h : Near u k x y) :
    |loggamma x - loggamma y| ≤ gam u (2 * k) * (1 + y * (1 + |Real.log y|)) := by
  have hx : 0 < x := (near_sign h0 h1 h).2.1.2 hy
  have hl := log_near h0 h1 hy h
  have hd : |x - y| ≤ gam u k * y := (Near.within h0 h1 hy.le h).1
  have hg := gam_nonneg h0 h1 k
  have hg2 : gam u (2 * k) = gam u k + gam u k * (1 + gam u k) := by
    have := gam_add (u := u) k k
    rw [two_mul]; linarith
  have hlx : |Real.log x| ≤ |Real.log y| + gam u k := by
    have := abs_add_le (Real.log x - Real.log y) (Real.log y)
    rw [sub_add_cancel] at this
    linarith
  -- a common bound
  have key : ∀ a b : ℝ, 0 < a → a ≤ b → |Real.log a| ≤ |Real.log y| + gam u k → |Real.log b| ≤ |Real.log y| + gam u k →
      b - a ≤ gam u k * y → Real.log b - Real.log a ≤ gam u k →
      |loggamma b - loggamma a| ≤ gam u (2 * k) * (1 + y * (1 + |Real.log y|)) := by
    intro a b ha hab la lb hba hlog
    obtain ⟨d1, d2⟩ := loggamma_diff ha hab
    have hb := ha.trans_le hab
    rw [Real.log_div hb.ne' ha.ne'] at d1
    have hn : 0 ≤ b - a := by linarith
    have hay := abs_nonneg (Real.log y)
    have hM : 0 ≤ |Real.log y| + gam u k := by linarith
    have b1 : (b - a) * |Real.log a| ≤ (gam u k * y) * (|Real.log y| + gam u k) := mul_le_mul hba la (abs_nonneg _) (by positivity)
    have b2 : (b - a) * |Real.log b| ≤ (gam u k * y) * (|Real.log y| + gam u k) := mul_le_mul hba lb (abs_nonneg _) (by positivity)
    have c1 : -((b - a) * |Real.log a|) ≤ (b - a) * Real.log a := by
      have := mul_le_mul_of_nonneg_left (neg_abs_le (Real.log a)) hn
      linarith
    have c2 : (b - a) * Real.log b ≤ (b - a) * |Real.log b| := mul_le_mul_of_nonneg_left (le_abs_self _) hn
    have hgy : 0 ≤ gam u k * y := by positivity
    have t1 : (gam u k * y) * (|Real.log y| + gam u k) + gam u k ≤ gam u (2 * k) * (1 + y * (1 + |Real.log y|)) := by
      rw [hg2]
      have p1 : 0 ≤ gam u k * y * (gam u k * |Real.log y|) := by positivity
      have p2 : 0 ≤ gam u k * y := hgy
      have p3 : 0 ≤ gam u k * (gam u k) := by positivity
      have p4 : 0 ≤ gam u k * y * |Real.log y| := by positivity
      have p5 : 0 ≤ gam u k * y * gam u k := by positivity
      nlinarith
    rw [_root_.abs_le]
    constructor <;> linarith
  rcases le_total x y with hxy | hxy
  · have := key x y hx hxy hlx (by linarith) (by rw [abs_sub_comm, abs_of_nonneg (by linarith)] at hd; exact hd)
      (by rw [abs_sub_comm] at hl; exact (le_abs_self _).trans hl)
    rwa [abs_sub_comm]
  · exact key y x hy hxy (by linarith) hlx (by rw [abs_of_nonneg (by linarith)] at hd; exact hd) ((le_abs_self _).trans hl)

variable {a : Nat} {F : FloatMath}

theorem log_leaf (h0 : 0 ≤ u) (h1 : u < 1) (hF : MathOK u a F) (hy : 0 < y) (h : Near u k x y) :
    Within u (a + k) (logSize y) (F.log x) (Real.log y) := by
  have hx : 0 < x := (near_sign h0 h1 h).2.1.2 hy
  have e1 : |F.log x - Real.log x| ≤ gam u a * (1 + |Real.log x|) := hF.log x hx
  have e2 := log_near h0 h1 hy h
  have ha := gam_nonneg h0 h1 a
  have hk := gam_nonneg h0 h1 k
  have e3 : |Real.log x| ≤ |Real.log y| + gam u k := by
    have := abs_add_le (Real.log x - Real.log y) (Real.log y)
    rw [sub_add_cancel] at this
    linarith
  refine ⟨?_, by unfold logSize; linarith⟩
  show _ ≤ gam u (a + k) * logSize y
  have e4 : gam u (a + k) = gam u a * (1 + gam u k) + gam u k := by have := gam_add (u := u) a k; linarith
  have e5 : |F.log x - Real.log y| ≤ |F.log x - Real.log x| + |Real.log x - Real.log y| := by
    have := abs_add_le (F.log x - Real.log x) (Real.log x - Real.log y)
    simpa using this
  have hay := abs_nonneg (Real.log y)
  have e6 : gam u a * (1 + |Real.log x|) ≤ gam u a * (1 + |Real.log y| + gam u k) := mul_le_mul_of_nonneg_left (by linarith) ha
  rw [e4]
  unfold logSize
  have p1 : 0 ≤ gam u a * gam u k * |Real.log y| := by positivity
  have p2 : 0 ≤ gam u k * |Real.log y| := by positivity
  nlinarith

theorem lgamma_leaf (h0 : 0 ≤ u) (h1 : u < 1) (hF : MathOK u a F) (hy : 0 < y) (h : Near u k x y) :
    Within u (a + 2 * k) (gammaSize y) (F.lgamma x) (loggamma y) := by
  have hx : 0 < x := (near_sign h0 h1 h).2.1.2 hy
  have e1 : |F.lgamma x - loggamma x| ≤ gam u a * (1 + |loggamma x|) := hF.lgamma x hx
  have e2 := loggamma_near h0 h1 hy h
  have ha := gam_nonneg h0 h1 a
  have hk := gam_nonneg h0 h1 (2 * k)
  have hay := abs_nonneg (loggamma y)
  have hly := abs_nonneg (Real.log y)
  have hS : 1 + y * (1 + |Real.log y|) ≤ gammaSize y := by unfold gammaSize; linarith
  have hS0 : 0 ≤ gammaSize y := by unfold gammaSize; positivity
  have e2' : |loggamma x - loggamma y| ≤ gam u (2 * k) * gammaSize y := e2.trans (mul_le_mul_of_nonneg_left hS hk)
  have e3 : |loggamma x| ≤ |loggamma y| + gam u (2 * k) * gammaSize y := by
    have := abs_add_le (loggamma x - loggamma y) (loggamma y)
    rw [sub_add_cancel] at this
    linarith
  have hS1 : 1 + |loggamma y| ≤ gammaSize y := by
    unfold gammaSize
    have : 0 ≤ y * (1 + |Real.log y|) := by positivity
    linarith
  refine ⟨?_, by linarith⟩
  show _ ≤ gam u (a + 2 * k) * gammaSize y
  have e4 : gam u (a + 2 * k) = gam u a * (1 + gam u (2 * k)) + gam u (2 * k) := by have := gam_add (u := u) a (2 * k); linarith
  have e5 : |F.lgamma x - loggamma y| ≤ |F.lgamma x - loggamma x| + |loggamma x - loggamma y| := by
    have := abs_add_le (F.lgamma x - loggamma x) (loggamma x - loggamma y)
    simpa using this
  have e6 : gam u a * (1 + |loggamma x|) ≤ gam u a * (gammaSize y + gam u (2 * k) * gammaSize y) := mul_le_mul_of_nonneg_left (by linarith) ha
  rw [e4]
  nlinarith

end


/-! ## The terms -/

section
variable {u : ℝ} {a k c : Nat} {F : FloatMath} {τ α : ℝ}

/-- The computed exit term. -/
noncomputable def qTermF (F : FloatMath) (τ α : ℝ) (m : Nat) (t : ℚ) : ℝ :=
  F.rnd (F.rnd (F.lgamma (F.rnd (F.rnd (α + m) + 1)) + F.rnd (F.log τ * F.rnd (α + 1))) -
    F.rnd (F.lgamma (F.rnd (α + 1)) + F.rnd (F.log (F.rnd (τ + (t : ℝ))) * F.rnd (F.rnd (α + m) + 1))))

/-- The computed target term of one state. -/
noncomputable def thetaTermF (F : FloatMath) (α w : ℝ) (ys : List Nat) (mx : Nat) (m : Nat → Nat) : ℝ :=
  F.rnd (F.rnd (F.lgamma α - F.lgamma (F.rnd (α + mx))) + F.sum (ys.map (fun y => F.internalTheta (m y) w)))

theorem near_plus (h0 : 0 ≤ u) (h1 : u < 1) {r : ℝ → ℝ} (hr : Accurate u r) {j : Nat} {x y b : ℝ} (hy : 0 ≤ y) (hb : 0 ≤ b) (h : Near u j x y) :
    Near u (j + 1) (r (x + b)) (y + b) := by
  have h2 := near_add h0 h1 hy hb h (near_mono h0 h1 (Nat.zero_le j) (near_refl b))
  have := near_trans h0 h1 (near_rnd h0 h1 hr (x + b)) h2
  rwa [Nat.add_comm] at this

theorem qTerm_within (h0 : 0 ≤ u) (h1 : u < 1) (hF : MathOK u a F) (hτ : 0 < τ) (hα : 0 < α) (m : Nat) {t t' : ℚ} (ht : 0 ≤ t)
    (hn : Near u k (t' : ℝ) (t : ℝ)) :
    Within u (a + k + 6) (gammaSize (α + m + 1) + logSize τ * (α + 1) + (gammaSize (α + 1) + logSize (τ + (t : ℝ)) * (α + m + 1)))
      (qTermF F τ α m t') (qTerm τ α m t) := by
  have ht' : (0 : ℝ) ≤ t := by exact_mod_cast ht
  have hm : (0 : ℝ) ≤ m := Nat.cast_nonneg m
  have n1 : Near u 1 (F.rnd (α + m)) (α + m) := near_rnd h0 h1 hF.rnd _
  have n2 : Near u 2 (F.rnd (F.rnd (α + m) + 1)) (α + m + 1) := near_plus h0 h1 hF.rnd (by positivity) zero_le_one n1
  have n3 : Near u 1 (F.rnd (α + 1)) (α + 1) := near_rnd h0 h1 hF.rnd _
  have n4 : Near u (k + 1) (F.rnd (τ + (t' : ℝ))) (τ + (t : ℝ)) := by
    have := near_plus h0 h1 hF.rnd ht' hτ.le hn
    rwa [add_comm (t' : ℝ), add_comm (t : ℝ)] at this
  have w1 := lgamma_leaf h0 h1 hF (show 0 < α + m + 1 by positivity) n2
  have w2 := log_leaf h0 h1 hF hτ (near_refl τ)
  have w3 := Near.within h0 h1 (show 0 ≤ α + 1 by positivity) n3
  have w4 := (w2.mul h0 h1 w3).rnd h0 h1 hF.rnd
  have w5 := ((w1.mono h0 h1 (show a + 2 * 2 ≤ a + k + 4 by omega) le_rfl).add h0 h1 (w4.mono h0 h1 (show a + 0 + 1 + 1 ≤ a + k + 4 by omega) le_rfl)).rnd h0 h1 hF.rnd
  have w6 := lgamma_leaf h0 h1 hF (show 0 < α + 1 by positivity) n3
  have w7 := log_leaf h0 h1 hF (show 0 < τ + (t : ℝ) by positivity) n4
  have w8 := Near.within h0 h1 (show 0 ≤ α + m + 1 by positivity) n2
  have w9 := (w7.mul h0 h1 w8).rnd h0 h1 hF.rnd
  have w10 := ((w6.mono h0 h1 (show a + 2 * 1 ≤ a + (k + 1) + 2 + 1 by omega) le_rfl).add h0 h1 w9).rnd h0 h1 hF.rnd
  have w11 := ((w5.mono h0 h1 (show a + k + 4 + 1 ≤ a + (k + 1) + 2 + 1 + 1 by omega) le_rfl).sub h0 h1 w10).rnd h0 h1 hF.rnd
  rw [show a + (k + 1) + 2 + 1 + 1 + 1 = a + k + 6 by omega] at w11
  exact w11

theorem internal_within (h0 : 0 ≤ u) (h1 : u < 1) (hF : MathOK u a F) {w w' : ℝ} (hw : 0 < w) (hn : Near u 1 w' w) (m : Nat) :
    Within u (a + 5) (gammaSize (w + m) + gammaSize w) (F.internalTheta m w') (internalTheta m w) := by
  have hm : (0 : ℝ) ≤ m := Nat.cast_nonneg m
  have n1 : Near u 2 (F.rnd (w' + m)) (w + m) := near_plus h0 h1 hF.rnd hw.le hm hn
  have w1 := lgamma_leaf h0 h1 hF (show 0 < w + m by positivity) n1
  have w2 := lgamma_leaf h0 h1 hF hw hn
  have w3 := (w1.sub h0 h1 (w2.mono h0 h1 (show a + 2 * 1 ≤ a + 2 * 2 by omega) le_rfl)).rnd h0 h1 hF.rnd
  exact w3

theorem thetaTerm_within (h0 : 0 ≤ u) (h1 : u < 1) (hF : MathOK u a F) (hα : 0 < α) {w w' : ℝ} (hw : 0 < w) (hn : Near u 1 w' w) (c x mx : Nat) (m : Nat → Nat) :
    Within u (a + c + 6) (gammaSize α + gammaSize (α + mx) + ∑ y ∈ (Finset.range c).erase x, (gammaSize (w + m y) + gammaSize w))
      (thetaTermF F α w' ((List.range c).filter (fun y => decide (y ≠ x))) mx m) (thetaTerm α w ((Finset.range c).erase x) mx m) := by
  have hm : (0 : ℝ) ≤ mx := Nat.cast_nonneg mx
  have n1 : Near u 1 (F.rnd (α + mx)) (α + mx) := near_rnd h0 h1 hF.rnd _
  have w1 := lgamma_leaf h0 h1 hF hα (near_refl α)
  have w2 := lgamma_leaf h0 h1 hF (show 0 < α + mx by positivity) n1
  have w3 := ((w1.mono h0 h1 (show a + 2 * 0 ≤ a + 2 * 1 by omega) le_rfl).sub h0 h1 w2).rnd h0 h1 hF.rnd
  have w4 := within_fsum h0 h1 hF.rnd (fun y => F.internalTheta (m y) w') (fun y => internalTheta (m y) w) (fun y => gammaSize (w + m y) + gammaSize w)
    ((List.range c).filter (fun y => decide (y ≠ x))) (fun y _ => internal_within h0 h1 hF hw hn (m y))
  have hlen : ((List.range c).filter (fun y => decide (y ≠ x))).length ≤ c := (List.length_filter_le _ _).trans (by simp)
  have w5 := ((w3.mono h0 h1 (show a + 2 * 1 + 1 ≤ a + 5 + c by omega) le_rfl).add h0 h1 (w4.mono h0 h1 (show _ ≤ a + 5 + c by omega) le_rfl)).rnd h0 h1 hF.rnd
  rw [filter_sum_eq, filter_sum_eq] at w5
  rw [show a + 5 + c + 1 = a + c + 6 by omega] at w5
  exact w5

/-! ## Closed forms of the computed score -/

theorem singleQF_ok (hτ : 0 < τ) {m : Nat} {t : ℚ} (h : 0 < F.rnd (τ + (t : ℝ))) : F.singleQ m t τ α = .ok (qTermF F τ α m t) := by
  unfold FloatMath.singleQ FloatMath.mathLog
  rw [if_pos hτ, if_pos h]
  rfl

theorem variableQF_toCim (hτ : 0 < τ) {s : Stats} (hs : ∀ x, x < c → 0 < F.rnd (τ + (s.time x : ℝ))) (q : List (List ℚ)) :
    F.variableQ (s.toCim c q) τ α = .ok (F.sum ((List.range c).map (fun x => qTermF F τ α (s.count x x) (s.time x)))) := by
  unfold FloatMath.variableQ
  have hlen : (s.toCim c q).resTimes.length = c := by simp [Stats.toCim]
  rw [hlen, mapM_ok_map (g := fun x => qTermF F τ α (s.count x x) (s.time x))]
  · rfl
  · intro x hx
    have hx := List.mem_range.1 hx
    rw [entry_toCim hx hx]
    simp only [Except.bind_ok', Stats.toCim, pyGet_range_map hx]
    exact singleQF_ok hτ (hs x hx)

theorem singleThetaF_toCim (F : FloatMath) (α w : ℝ) {s : Stats} (q : List (List ℚ)) {x : Nat} (hx : x < c) :
    F.singleTheta x (s.toCim c q) α w = .ok (thetaTermF F α w ((List.range c).filter (fun y => decide (y ≠ x))) (s.count x x) (s.count x)) := by
  unfold FloatMath.singleTheta
  have hlen : (s.toCim c q).resTimes.length = c := by simp [Stats.toCim]
  rw [hlen]
  unfold pyRemove
  rw [if_pos (List.mem_range.2 hx), entry_toCim hx hx]
  simp only [Except.bind_ok']
  rw [mapM_ok_map (g := fun y => F.internalTheta (s.count x y) w)]
  · show Except.ok _ = _
    unfold thetaTermF
    rw [range_erase]
  · intro y hy
    rw [range_erase] at hy
    simp only [List.mem_filter, List.mem_range] at hy
    rw [entry_toCim hx hy.1]; rfl

theorem variableThetaF_toCim (F : FloatMath) (α w : ℝ) {s : Stats} (q : List (List ℚ)) :
    F.variableTheta (s.toCim c q) α w =
      .ok (F.sum ((List.range c).map (fun x => thetaTermF F α w ((List.range c).filter (fun y => decide (y ≠ x))) (s.count x x) (s.count x)))) := by
  unfold FloatMath.variableTheta
  have hlen : (s.toCim c q).resTimes.length = c := by simp [Stats.toCim]
  rw [hlen, mapM_ok_map (g := fun x => thetaTermF F α w ((List.range c).filter (fun y => decide (y ≠ x))) (s.count x x) (s.count x))]
  · rfl
  · intro x hx
    exact singleThetaF_toCim F α w q (List.mem_range.1 hx)

theorem getFamScoreF_closed (hτ : 0 < τ) (hc : c ≠ 1) {ι : Type} {l : List ι} (hl : l ≠ []) {s : ι → Stats} {q : ι → List (List ℚ)}
    (hs : ∀ i ∈ l, ∀ x, x < c → 0 < F.rnd (τ + ((s i).time x : ℝ))) :
    F.getFamScore (l.map (fun i => (s i).toCim c (q i))) τ α =
      .ok (F.rnd (F.sum (l.map (fun i => F.sum ((List.range c).map (fun x => qTermF F τ α ((s i).count x x) ((s i).time x))))) +
        F.sum (l.map (fun i => F.sum ((List.range c).map (fun x => thetaTermF F α (F.rnd (α / ((c : ℝ) - 1)))
          ((List.range c).filter (fun y => decide (y ≠ x))) ((s i).count x x) ((s i).count x))))))) := by
  obtain ⟨p0, l', rfl⟩ := List.exists_cons_of_ne_nil hl
  unfold FloatMath.getFamScore
  have h0 : pyGet ((p0 :: l').map (fun i => (s i).toCim c (q i))) 0 = .ok ((s p0).toCim c (q p0)) := by
    rw [pyGet_ok]; rfl
  have hlen : ((s p0).toCim c (q p0)).resTimes.length = c := by simp [Stats.toCim]
  rw [h0]
  simp only [Except.bind_ok', hlen, if_neg hc]
  have hq : F.marginalQ ((p0 :: l').map (fun i => (s i).toCim c (q i))) τ α =
      .ok (F.sum ((p0 :: l').map (fun i => F.sum ((List.range c).map (fun x => qTermF F τ α ((s i).count x x) ((s i).time x)))))) := by
    unfold FloatMath.marginalQ
    rw [List.mapM_map, mapM_ok_map (g := fun i => F.sum ((List.range c).map (fun x => qTermF F τ α ((s i).count x x) ((s i).time x))))]
    · rfl
    · intro i hi; exact variableQF_toCim hτ (hs i hi) (q i)
  have ht : F.marginalTheta ((p0 :: l').map (fun i => (s i).toCim c (q i))) α (F.rnd (α / ((c : ℝ) - 1))) =
      .ok (F.sum ((p0 :: l').map (fun i => F.sum ((List.range c).map (fun x => thetaTermF F α (F.rnd (α / ((c : ℝ) - 1)))
          ((List.range c).filter (fun y => decide (y ≠ x))) ((s i).count x x) ((s i).count x)))))) := by
    unfold FloatMath.marginalTheta
    rw [List.mapM_map, mapM_ok_map (g := fun i => F.sum ((List.range c).map (fun x => thetaTermF F α (F.rnd (α / ((c : ℝ) - 1)))
          ((List.range c).filter (fun y => decide (y ≠ x))) ((s i).count x x) ((s i).count x))))]
    · rfl
    · intro i hi; exact variableThetaF_toCim F α _ (q i)
  rw [hq, ht]
  rfl

/-- The computed score of statistics with the same counts and times up to `k` errors. -/
theorem getFamScoreF_within (h0 : 0 ≤ u) (h1 : u < 1) (hF : MathOK u a F) (hτ : 0 < τ) (hα : 0 < α) (hc : 2 ≤ c) {ι : Type} {l : List ι} (hl : l ≠ [])
    {s s' : ι → Stats} {q q' : ι → List (List ℚ)} (hcount : ∀ i ∈ l, ∀ x < c, ∀ y < c, (s' i).count x y = (s i).count x y)
    (htime : ∀ i ∈ l, ∀ x < c, 0 ≤ (s i).time x ∧ Near u k ((s' i).time x : ℝ) ((s i).time x : ℝ)) :
    ∃ v v', getFamScore (l.map (fun i => (s i).toCim c (q i))) τ α = .ok v ∧ F.getFamScore (l.map (fun i => (s' i).toCim c (q' i))) τ α = .ok v' ∧
      Within u (a + k + 2 * c + l.length + 7) (l.map (fun i => (s i).size τ α c)).sum v' v := by
  have hex := getFamScore_closed (α := α) hτ (show c ≠ 1 by omega) (l := l.map (fun i => (s i, q i))) (by simpa using hl)
    (by intro p hp x hx; obtain ⟨i, hi, rfl⟩ := List.mem_map.1 hp; exact (htime i hi x hx).1)
  rw [List.map_map, List.map_map] at hex
  have hpos : ∀ i ∈ l, ∀ x, x < c → 0 < F.rnd (τ + ((s' i).time x : ℝ)) := by
    intro i hi x hx
    obtain ⟨t0, tn⟩ := htime i hi x hx
    have ht' : (0 : ℝ) ≤ ((s i).time x : ℝ) := by exact_mod_cast t0
    have := near_plus h0 h1 hF.rnd ht' hτ.le tn
    rw [add_comm ((s' i).time x : ℝ), add_comm ((s i).time x : ℝ)] at this
    exact (near_sign h0 h1 this).2.1.2 (by positivity)
  refine ⟨_, _, hex, getFamScoreF_closed hτ (show c ≠ 1 by omega) hl hpos, ?_⟩
  have hc1 : (0 : ℝ) < (c : ℝ) - 1 := by
    have : (2 : ℝ) ≤ c := by exact_mod_cast hc
    linarith
  have hw : 0 < α / ((c : ℝ) - 1) := div_pos hα hc1
  have hwn : Near u 1 (F.rnd (α / ((c : ℝ) - 1))) (α / ((c : ℝ) - 1)) := near_rnd h0 h1 hF.rnd _
  have hQ := within_fsum h0 h1 hF.rnd (k := a + k + 6 + c)
    (fun i => F.sum ((List.range c).map (fun x => qTermF F τ α ((s' i).count x x) ((s' i).time x))))
    (fun i => ((List.range c).map (fun x => qTerm τ α ((s i).count x x) ((s i).time x))).sum)
    (fun i => ((List.range c).map (fun x => gammaSize (α + (s i).count x x + 1) + logSize τ * (α + 1) +
      (gammaSize (α + 1) + logSize (τ + ((s i).time x : ℝ)) * (α + (s i).count x x + 1)))).sum) l (by
    intro i hi
    have := within_fsum h0 h1 hF.rnd (k := a + k + 6) (fun x => qTermF F τ α ((s' i).count x x) ((s' i).time x))
      (fun x => qTerm τ α ((s i).count x x) ((s i).time x)) (fun x => gammaSize (α + (s i).count x x + 1) + logSize τ * (α + 1) +
      (gammaSize (α + 1) + logSize (τ + ((s i).time x : ℝ)) * (α + (s i).count x x + 1))) (List.range c) (by
        intro x hx
        have hx := List.mem_range.1 hx
        rw [hcount i hi x hx x hx]
        exact qTerm_within h0 h1 hF hτ hα _ (htime i hi x hx).1 (htime i hi x hx).2)
    rwa [List.length_range] at this)
  have hT := within_fsum h0 h1 hF.rnd (k := a + c + 6 + c)
    (fun i => F.sum ((List.range c).map (fun x => thetaTermF F α (F.rnd (α / ((c : ℝ) - 1)))
          ((List.range c).filter (fun y => decide (y ≠ x))) ((s' i).count x x) ((s' i).count x))))
    (fun i => ((List.range c).map (fun x => thetaTerm α (α / ((c : ℝ) - 1)) ((Finset.range c).erase x) ((s i).count x x) ((s i).count x))).sum)
    (fun i => ((List.range c).map (fun x => gammaSize α + gammaSize (α + (s i).count x x) +
      ∑ y ∈ (Finset.range c).erase x, (gammaSize (α / ((c : ℝ) - 1) + (s i).count x y) + gammaSize (α / ((c : ℝ) - 1))))).sum) l (by
    intro i hi
    have := within_fsum h0 h1 hF.rnd (k := a + c + 6) (fun x => thetaTermF F α (F.rnd (α / ((c : ℝ) - 1)))
          ((List.range c).filter (fun y => decide (y ≠ x))) ((s' i).count x x) ((s' i).count x))
      (fun x => thetaTerm α (α / ((c : ℝ) - 1)) ((Finset.range c).erase x) ((s i).count x x) ((s i).count x))
      (fun x => gammaSize α + gammaSize (α + (s i).count x x) +
      ∑ y ∈ (Finset.range c).erase x, (gammaSize (α / ((c : ℝ) - 1) + (s i).count x y) + gammaSize (α / ((c : ℝ) - 1)))) (List.range c) (by
        intro x hx
        have hx := List.mem_range.1 hx
        have he : thetaTermF F α (F.rnd (α / ((c : ℝ) - 1))) ((List.range c).filter (fun y => decide (y ≠ x))) ((s' i).count x x) ((s' i).count x) =
            thetaTermF F α (F.rnd (α / ((c : ℝ) - 1))) ((List.range c).filter (fun y => decide (y ≠ x))) ((s i).count x x) ((s i).count x) := by
          unfold thetaTermF
          rw [hcount i hi x hx x hx]
          congr 3
          apply List.map_congr_left
          intro y hy
          rw [hcount i hi x hx y (List.mem_range.1 (List.mem_filter.1 hy).1)]
        rw [he]
        exact thetaTerm_within h0 h1 hF hα hw hwn c x _ _)
    rwa [List.length_range] at this)
  have := ((hQ.mono h0 h1 (show _ ≤ a + k + 2 * c + l.length + 6 by omega) le_rfl).add h0 h1
    (hT.mono h0 h1 (show _ ≤ a + k + 2 * c + l.length + 6 by omega) le_rfl)).rnd h0 h1 hF.rnd
  rw [← List.sum_map_add, ← List.sum_map_add] at this
  have hA : (l.map (fun i => (s i).size τ α c)).sum = (l.map (fun i =>
      ((List.range c).map (fun x => gammaSize (α + (s i).count x x + 1) + logSize τ * (α + 1) +
        (gammaSize (α + 1) + logSize (τ + ((s i).time x : ℝ)) * (α + (s i).count x x + 1)))).sum +
      ((List.range c).map (fun x => gammaSize α + gammaSize (α + (s i).count x x) +
        ∑ y ∈ (Finset.range c).erase x, (gammaSize (α / ((c : ℝ) - 1) + (s i).count x y) + gammaSize (α / ((c : ℝ) - 1))))).sum)).sum := by
    congr 1
    apply List.map_congr_left
    intro i _
    unfold Stats.size
    rw [← List.sum_map_add]
    show _ = ∑ x ∈ Finset.range c, _
    apply Finset.sum_congr rfl
    intro x _
    ring
  rw [hA]
  exact this

end

end PyCTBN
