import Verif.Model.FloatTest
import Verif.Spec.FloatTest
import Verif.Lemmas.Float
import Verif.Lemmas.Indep

/-! # Rounding errors of the statistics of the two-CIM test -/

namespace PyCTBN
open Spec Indep

section
variable {u : ℝ}

theorem gam_nonneg (h0 : 0 ≤ u) (h1 : u < 1) (m : Nat) : 0 ≤ gam u m := by
  have p := pow_le_one_sub h0 h1 m
  have := (one_le_inv₀ p.1).2 p.2
  unfold gam; linarith

theorem gam_add (m k : Nat) : 1 + gam u (m + k) = (1 + gam u m) * (1 + gam u k) := by
  unfold gam
  rw [pow_add, mul_inv]; ring

theorem gam_one_add (h0 : 0 ≤ u) (h1 : u < 1) : u ≤ gam u 1 := by
  unfold gam
  rw [pow_one]
  have : 1 + u ≤ (1 - u)⁻¹ := by
    rw [le_inv_comm₀ (by linarith) (by linarith), ← one_div, le_div_iff₀ (by linarith)]
    nlinarith
  linarith

/-- A factor near one as an absolute error. -/
theorem near_abs (h0 : 0 ≤ u) (h1 : u < 1) {m : Nat} {x y : ℝ} (h : Near u m x y) : |x - y| ≤ gam u m * |y| := by
  obtain ⟨θ, a, b, rfl⟩ := h
  have p := pow_le_one_sub h0 h1 m
  rw [show θ * y - y = (θ - 1) * y by ring, abs_mul]
  refine mul_le_mul_of_nonneg_right ?_ (abs_nonneg _)
  have : 2 ≤ (1 - u) ^ m + ((1 - u) ^ m)⁻¹ := by
    have e : (1 - u) ^ m * ((1 - u) ^ m)⁻¹ = 1 := mul_inv_cancel₀ p.1.ne'
    nlinarith [sq_nonneg ((1 - u) ^ m - 1), p.1, sq_nonneg (((1 - u) ^ m)⁻¹ - 1), inv_pos.2 p.1]
  rw [abs_le]; unfold gam
  constructor <;> linarith

theorem near_sqrt (h0 : 0 ≤ u) (h1 : u < 1) {m : Nat} {x y : ℝ} (h : Near u m x y) : Near u m (Real.sqrt x) (Real.sqrt y) := by
  obtain ⟨θ, a, b, rfl⟩ := h
  have p := pow_le_one_sub h0 h1 m
  have hθ : 0 < θ := p.1.trans_le a
  refine ⟨Real.sqrt θ, ?_, ?_, Real.sqrt_mul hθ.le y⟩
  · apply Real.le_sqrt_of_sq_le
    nlinarith
  · rw [Real.sqrt_le_left (inv_nonneg.2 p.1.le)]
    have := (one_le_inv₀ p.1).2 p.2
    nlinarith

theorem near_mul_right {m : Nat} {x y : ℝ} (h : Near u m x y) (b : ℝ) : Near u m (x * b) (y * b) := by
  obtain ⟨θ, a, c, rfl⟩ := h
  exact ⟨θ, a, c, by ring⟩

/-- The rounded difference of two non-negative numbers each off by three errors. -/
theorem diff_error (h0 : 0 ≤ u) (h1 : u < 1) {f : ℝ → ℝ} (hf : Accurate u f) {x y x' y' : ℝ} (hx : 0 ≤ x) (hy : 0 ≤ y) (nx : Near u 3 x' x)
    (ny : Near u 3 y' y) : |f (x' - y') - (x - y)| ≤ gam u 4 * (x + y) := by
  have g := gam_nonneg h0 h1 3
  have g1 := gam_nonneg h0 h1 1
  have ex := near_abs h0 h1 nx
  have ey := near_abs h0 h1 ny
  rw [abs_of_nonneg hx] at ex
  rw [abs_of_nonneg hy] at ey
  have hz : |x' - y' - (x - y)| ≤ gam u 3 * (x + y) := by
    rw [show x' - y' - (x - y) = (x' - x) - (y' - y) by ring]
    refine (abs_sub _ _).trans ?_
    linarith
  have hz2 : |x' - y'| ≤ (1 + gam u 3) * (x + y) := by
    have : |x' - y'| ≤ |x' - y' - (x - y)| + |x - y| := by
      have := abs_add_le (x' - y' - (x - y)) (x - y)
      rwa [sub_add_cancel] at this
    have h2 : |x - y| ≤ x + y := by rw [abs_le]; constructor <;> linarith
    linarith
  have hr : |f (x' - y') - (x' - y')| ≤ gam u 1 * ((1 + gam u 3) * (x + y)) := by
    refine (hf _).trans (mul_le_mul (gam_one_add h0 h1) hz2 (abs_nonneg _) g1)
  have e : gam u 4 = gam u 3 + gam u 1 * (1 + gam u 3) := by
    have := gam_add (u := u) 3 1
    linarith
  rw [e, show f (x' - y') - (x - y) = (f (x' - y') - (x' - y')) + (x' - y' - (x - y)) by ring]
  refine (abs_add_le _ _).trans ?_
  nlinarith

theorem sq_error {d d' S : ℝ} {g : ℝ} (hg : 0 ≤ g) (hd : |d| ≤ S) (h : |d' - d| ≤ g * S) : |d' ^ 2 - d ^ 2| ≤ ((1 + g) * (1 + g) - 1) * S ^ 2 := by
  have hS : 0 ≤ S := (abs_nonneg _).trans hd
  rw [show d' ^ 2 - d ^ 2 = (d' - d) * (d' - d + 2 * d) by ring, abs_mul]
  have h2 : |d' - d + 2 * d| ≤ (g + 2) * S := by
    refine (abs_add_le _ _).trans ?_
    rw [abs_mul, abs_two]
    linarith
  calc |d' - d| * |d' - d + 2 * d| ≤ (g * S) * ((g + 2) * S) := mul_le_mul h h2 (abs_nonneg _) (by positivity)
    _ = _ := by ring

theorem sumF_fin_near (h0 : 0 ≤ u) (h1 : u < 1) {f : ℝ → ℝ} (hf : Accurate u f) {α : Type} (l : List α) (t A : α → ℝ) (hA : ∀ a ∈ l, 0 ≤ A a)
    (hn : ∀ a ∈ l, Near u 2 (t a) (A a)) :
    ∃ s, XR.sumF f (l.map (fun a => .fin (t a))) = .fin s ∧ Near u (l.length + 2) s (l.map A).sum := by
  have key : ∀ (l : List α), (∀ a ∈ l, 0 ≤ A a) → (∀ a ∈ l, Near u 2 (t a) (A a)) → ∀ (j : Nat) (s s' : ℝ), 2 ≤ j → 0 ≤ s' → Near u j s s' →
      ∃ r, (l.map (fun a => XR.fin (t a))).foldl (fun (s x : XR) => (s.add x).rnd f) (XR.fin s) = XR.fin r ∧ Near u (l.length + j) r (s' + (l.map A).sum) := by
    intro l
    induction l with
    | nil => intro _ _ j s s' _ _ h; exact ⟨s, rfl, by simpa using h⟩
    | cons a l ih =>
      intro hA hn j s s' hj hs' h
      have hr : Near u (1 + j) (f (s + t a)) (s' + A a) :=
        near_trans h0 h1 (near_rnd h0 h1 hf _) (near_add h0 h1 hs' (hA a (by simp)) h (near_mono h0 h1 hj (hn a (by simp))))
      obtain ⟨r, hr1, hr2⟩ := ih (fun b hb => hA b (by simp [hb])) (fun b hb => hn b (by simp [hb])) (1 + j) _ _ (by omega)
        (add_nonneg hs' (hA a (by simp))) hr
      refine ⟨r, hr1, ?_⟩
      rw [List.map_cons, List.sum_cons, List.length_cons, ← add_assoc, show l.length + 1 + j = l.length + (1 + j) by omega]
      exact hr2
  obtain ⟨r, hr1, hr2⟩ := key l hA hn 2 0 0 le_rfl le_rfl (near_mono h0 h1 (Nat.zero_le 2) (near_refl 0))
  rw [zero_add] at hr2
  exact ⟨r, hr1, hr2⟩

theorem sumF_nan {f : ℝ → ℝ} {l : List XR} (h : XR.nan ∈ l) : XR.sumF f l = .nan := by
  have stay : ∀ l : List XR, l.foldl (fun (s x : XR) => (s.add x).rnd f) XR.nan = XR.nan := by
    intro l
    induction l with
    | nil => rfl
    | cons a l ih => rw [List.foldl_cons, XR.nan_add]; exact ih
  have key : ∀ (l : List XR) (s : XR), XR.nan ∈ l → l.foldl (fun (s x : XR) => (s.add x).rnd f) s = .nan := by
    intro l
    induction l with
    | nil => intro s h; simp at h
    | cons a l ih =>
      intro s h
      rw [List.foldl_cons]
      rcases List.mem_cons.1 h with rfl | h
      · rw [XR.add_nan]; exact stay l
      · exact ih _ h
  exact key l _ h

/-- One summand: a number off by two errors from `d'²/(a+b)`, where `d'` is the computed difference. -/
theorem chiTermF_fin (h0 : 0 ≤ u) (h1 : u < 1) {f : ℝ → ℝ} (hf : Accurate u f) {r1 r2 a b : ℝ} (p1 : 0 < r1) (p2 : 0 < r2) (ha : 0 ≤ a) (hb : 0 ≤ b)
    (hab : 0 < a + b) :
    ∃ t d', chiTermF f ((((XR.div r1 r2).rnd f).sqrt).rnd f) ((((XR.div r2 r1).rnd f).sqrt).rnd f) a b = .fin t ∧ Near u 2 t (d' ^ 2 / (a + b)) ∧
      |d' ^ 2 / (a + b) - (r1 * b - r2 * a) ^ 2 / (r1 * r2 * (a + b))| ≤ gam u 8 * ((r1 * b + r2 * a) ^ 2 / (r1 * r2 * (a + b))) := by
  have e1 : XR.div r1 r2 = .fin (r1 / r2) := by simp [XR.div, p2.ne']
  have e2 : XR.div r2 r1 = .fin (r2 / r1) := by simp [XR.div, p1.ne']
  have q1 : 0 < r1 / r2 := by positivity
  have q2 : 0 < r2 / r1 := by positivity
  have n1 := near_rnd h0 h1 hf (r1 / r2)
  have n2 := near_rnd h0 h1 hf (r2 / r1)
  have s1 : ¬ f (r1 / r2) < 0 := not_lt.2 ((near_sign h0 h1 n1).2.1.2 q1).le
  have s2 : ¬ f (r2 / r1) < 0 := not_lt.2 ((near_sign h0 h1 n2).2.1.2 q2).le
  set K := Real.sqrt (r1 / r2) with hK
  set L := Real.sqrt (r2 / r1) with hL
  have nk : Near u 2 (f (Real.sqrt (f (r1 / r2)))) K := near_trans h0 h1 (near_rnd h0 h1 hf _) (near_sqrt h0 h1 n1)
  have nl : Near u 2 (f (Real.sqrt (f (r2 / r1)))) L := near_trans h0 h1 (near_rnd h0 h1 hf _) (near_sqrt h0 h1 n2)
  have nx : Near u 3 (f (f (Real.sqrt (f (r1 / r2))) * b)) (K * b) := near_trans h0 h1 (near_rnd h0 h1 hf _) (near_mul_right nk b)
  have ny : Near u 3 (f (f (Real.sqrt (f (r2 / r1))) * a)) (L * a) := near_trans h0 h1 (near_rnd h0 h1 hf _) (near_mul_right nl a)
  set x' := f (f (Real.sqrt (f (r1 / r2))) * b)
  set y' := f (f (Real.sqrt (f (r2 / r1))) * a)
  have hK0 : 0 ≤ K := Real.sqrt_nonneg _
  have hL0 : 0 ≤ L := Real.sqrt_nonneg _
  have hd := diff_error h0 h1 hf (mul_nonneg hK0 hb) (mul_nonneg hL0 ha) nx ny
  refine ⟨f (f (f (x' - y') ^ 2) / (a + b)), f (x' - y'), ?_, ?_, ?_⟩
  · unfold chiTermF
    rw [e1, e2]
    simp only [XR.rnd, XR.sqrt, if_neg s1, if_neg s2, XR.mulFin, XR.neg, XR.add, XR.sq, XR.divFin, XR.div, if_neg hab.ne', ← sub_eq_add_neg]
    rfl
  · refine near_trans h0 h1 (k := 1) (near_rnd h0 h1 hf _) ?_
    have := near_div h0 h1 (near_rnd h0 h1 hf (f (x' - y') ^ 2)) (near_refl (u := u) (a + b))
    exact this
  · have k1 : K ^ 2 = r1 / r2 := Real.sq_sqrt q1.le
    have k2 : L ^ 2 = r2 / r1 := Real.sq_sqrt q2.le
    have k12 : K * L = 1 := by
      rw [hK, hL, ← Real.sqrt_mul q1.le, div_mul_div_comm, mul_comm r2 r1, div_self (by positivity), Real.sqrt_one]
    have hS : |K * b - L * a| ≤ K * b + L * a := by
      have := mul_nonneg hK0 hb
      have := mul_nonneg hL0 ha
      rw [abs_le]; constructor <;> linarith
    have hsq := sq_error (gam_nonneg h0 h1 4) hS hd
    rw [← gam_add, add_sub_cancel_left] at hsq
    have i1 : (r1 * b - r2 * a) ^ 2 / (r1 * r2 * (a + b)) = (K * b - L * a) ^ 2 / (a + b) := by
      have : (K * b - L * a) ^ 2 = (r1 / r2) * b ^ 2 - 2 * (a * b) + (r2 / r1) * a ^ 2 := by
        calc _ = K ^ 2 * b ^ 2 - 2 * (K * L) * (a * b) + L ^ 2 * a ^ 2 := by ring
          _ = _ := by rw [k1, k2, k12]; ring
      rw [this]; field_simp; ring
    have i2 : (r1 * b + r2 * a) ^ 2 / (r1 * r2 * (a + b)) = (K * b + L * a) ^ 2 / (a + b) := by
      have : (K * b + L * a) ^ 2 = (r1 / r2) * b ^ 2 + 2 * (a * b) + (r2 / r1) * a ^ 2 := by
        calc _ = K ^ 2 * b ^ 2 + 2 * (K * L) * (a * b) + L ^ 2 * a ^ 2 := by ring
          _ = _ := by rw [k1, k2, k12]; ring
      rw [this]; field_simp; ring
    rw [i1, i2, ← sub_div, abs_div, abs_of_pos hab, ← mul_div_assoc]
    exact div_le_div_of_nonneg_right hsq hab.le

theorem chiTermF_nan_zero (h0 : 0 ≤ u) (h1 : u < 1) {f : ℝ → ℝ} (hf : Accurate u f) {r1 r2 : ℝ} (p1 : 0 < r1) (p2 : 0 < r2) :
    chiTermF f ((((XR.div r1 r2).rnd f).sqrt).rnd f) ((((XR.div r2 r1).rnd f).sqrt).rnd f) 0 0 = .nan := by
  have e1 : XR.div r1 r2 = .fin (r1 / r2) := by simp [XR.div, p2.ne']
  have e2 : XR.div r2 r1 = .fin (r2 / r1) := by simp [XR.div, p1.ne']
  have s1 : ¬ f (r1 / r2) < 0 := not_lt.2 ((near_sign h0 h1 (near_rnd h0 h1 hf (r1 / r2))).2.1.2 (by positivity)).le
  have s2 : ¬ f (r2 / r1) < 0 := not_lt.2 ((near_sign h0 h1 (near_rnd h0 h1 hf (r2 / r1))).2.1.2 (by positivity)).le
  unfold chiTermF
  rw [e1, e2]
  simp [XR.rnd, XR.sqrt, s1, s2, XR.mulFin, XR.neg, XR.add, XR.sq, XR.divFin, XR.div, XR.infOf_zero, accurate_zero hf]

theorem sqrt_inf_nan {f : ℝ → ℝ} {r : ℝ} (h : 0 ≤ r) : (((((XR.div r 0).rnd f).sqrt).rnd f).mulFin 0) = .nan := by
  rcases h.lt_or_eq with h | h
  · simp [XR.div, XR.infOf_pos h, XR.rnd, XR.sqrt, XR.mulFin, XR.infOf_zero]
  · rw [← h]; simp [XR.div, XR.infOf_zero, XR.rnd, XR.sqrt, XR.mulFin]

theorem chiTermF_nan_left {f : ℝ → ℝ} {k : XR} {r2 b : ℝ} (h2 : 0 ≤ r2) : chiTermF f k ((((XR.div r2 0).rnd f).sqrt).rnd f) 0 b = .nan := by
  unfold chiTermF
  rw [sqrt_inf_nan h2]
  simp only [XR.rnd, XR.neg, XR.add_nan, XR.sq, XR.divFin]

theorem chiTermF_nan_right {f : ℝ → ℝ} {l : XR} {r1 a : ℝ} (h1 : 0 ≤ r1) : chiTermF f ((((XR.div r1 0).rnd f).sqrt).rnd f) l a 0 = .nan := by
  unfold chiTermF
  rw [sqrt_inf_nan h1]
  simp only [XR.rnd, XR.nan_add, XR.sq, XR.divFin]

/-- The chi-square statistic in floating point: a number exactly when the exact one is, off by `c + 9` roundings of `chiScale`. -/
theorem chiF_closed (h0 : 0 ≤ u) (h1 : u < 1) {f : ℝ → ℝ} (hf : Accurate u f) {c : Nat} {m1 m2 : Nat → Nat → Nat} {x : Nat} (hx : x < c)
    (e1 : ExitCounts c m1) (e2 : ExitCounts c m2) :
    (ChiDefined c m1 m2 x → ∃ s, chiF f (m1 x x) (m2 x x) (((List.range c).filter (fun y => decide (y ≠ x))).map (m1 x))
      (((List.range c).filter (fun y => decide (y ≠ x))).map (m2 x)) = .fin s ∧ |s - chiSquare c m1 m2 x| ≤ gam u (c + 9) * chiScale c m1 m2 x) ∧
    (¬ ChiDefined c m1 m2 x → chiF f (m1 x x) (m2 x x) (((List.range c).filter (fun y => decide (y ≠ x))).map (m1 x))
      (((List.range c).filter (fun y => decide (y ≠ x))).map (m2 x)) = .nan) := by
  unfold chiF
  simp only
  rw [zipWith_map_same]
  constructor
  · intro hd
    set l := (List.range c).filter (fun y => decide (y ≠ x)) with hl
    have hmem : ∀ y ∈ l, y < c ∧ y ≠ x := by
      intro y hy
      simpa only [hl, List.mem_filter, List.mem_range, decide_eq_true_eq] using hy
    have hlen : l.length + 1 = c := by
      have := filter_sum_eq c x (fun _ => (1 : ℕ))
      rw [← hl] at this
      simp only [List.map_const', List.sum_replicate, smul_eq_mul, mul_one, Finset.sum_const, Finset.card_erase_of_mem (Finset.mem_range.2 hx),
        Finset.card_range] at this
      omega
    choose! t d' ht using fun (y : Nat) (hy : y ∈ l) => chiTermF_fin h0 h1 hf (r1 := (m1 x x : ℝ)) (r2 := (m2 x x : ℝ)) (a := (m1 x y : ℝ)) (b := (m2 x y : ℝ))
      (by exact_mod_cast (hd y (hmem y hy).1 (hmem y hy).2).1) (by exact_mod_cast (hd y (hmem y hy).1 (hmem y hy).2).2.1) (by positivity) (by positivity)
      (by exact_mod_cast (hd y (hmem y hy).1 (hmem y hy).2).2.2)
    rw [List.map_congr_left (g := fun y => XR.fin (t y)) (fun y hy => (ht y hy).1)]
    obtain ⟨s, hs1, hs2⟩ := sumF_fin_near h0 h1 hf l t (fun y => d' y ^ 2 / ((m1 x y : ℝ) + m2 x y)) (fun y hy => by positivity) (fun y hy => (ht y hy).2.1)
    refine ⟨s, hs1, ?_⟩
    have hA : (0 : ℝ) ≤ (l.map (fun y => d' y ^ 2 / ((m1 x y : ℝ) + m2 x y))).sum := by
      apply List.sum_nonneg
      intro z hz
      obtain ⟨y, _, rfl⟩ := List.mem_map.1 hz
      positivity
    have hs3 := near_abs h0 h1 hs2
    rw [abs_of_nonneg hA] at hs3
    have hC : chiSquare c m1 m2 x = (l.map (fun y => ((m1 x x : ℝ) * m2 x y - m2 x x * m1 x y) ^ 2 / (m1 x x * m2 x x * (m1 x y + m2 x y)))).sum := by
      rw [hl, filter_sum_eq]; rfl
    have hW : chiScale c m1 m2 x = (l.map (fun y => ((m1 x x : ℝ) * m2 x y + m2 x x * m1 x y) ^ 2 / (m1 x x * m2 x x * (m1 x y + m2 x y)))).sum := by
      rw [hl, filter_sum_eq]; rfl
    have key : ∀ l' : List Nat, (∀ y ∈ l', y ∈ l) →
        |(l'.map (fun y => d' y ^ 2 / ((m1 x y : ℝ) + m2 x y))).sum
          - (l'.map (fun y => ((m1 x x : ℝ) * m2 x y - m2 x x * m1 x y) ^ 2 / (m1 x x * m2 x x * (m1 x y + m2 x y)))).sum|
          ≤ gam u 8 * (l'.map (fun y => ((m1 x x : ℝ) * m2 x y + m2 x x * m1 x y) ^ 2 / (m1 x x * m2 x x * (m1 x y + m2 x y)))).sum ∧
        (l'.map (fun y => ((m1 x x : ℝ) * m2 x y - m2 x x * m1 x y) ^ 2 / (m1 x x * m2 x x * (m1 x y + m2 x y)))).sum
          ≤ (l'.map (fun y => ((m1 x x : ℝ) * m2 x y + m2 x x * m1 x y) ^ 2 / (m1 x x * m2 x x * (m1 x y + m2 x y)))).sum := by
      intro l'
      induction l' with
      | nil => intro _; simp
      | cons y l' ih =>
        intro hsub
        obtain ⟨i1, i2⟩ := ih (fun z hz => hsub z (by simp [hz]))
        have hy := hsub y (by simp)
        have hterm := (ht y hy).2.2
        simp only [List.map_cons, List.sum_cons]
        constructor
        · rw [show ∀ a b c d : ℝ, a + b - (c + d) = (a - c) + (b - d) by intros; ring, mul_add (gam u 8)]
          exact (abs_add_le _ _).trans (add_le_add hterm i1)
        · refine add_le_add (div_le_div_of_nonneg_right ?_ (by positivity)) i2
          have q1 : (0 : ℝ) ≤ (m1 x x : ℝ) * m2 x y := by positivity
          have q2 : (0 : ℝ) ≤ (m2 x x : ℝ) * m1 x y := by positivity
          nlinarith
    obtain ⟨k1, k2⟩ := key l (fun _ h => h)
    rw [← hC, ← hW] at k1
    rw [← hC, ← hW] at k2
    set A := (l.map (fun y => d' y ^ 2 / ((m1 x y : ℝ) + m2 x y))).sum
    have hAW : A ≤ (1 + gam u 8) * chiScale c m1 m2 x := by
      have := (abs_le.1 k1).2
      linarith
    have e : gam u (c + 9) = gam u (l.length + 2) * (1 + gam u 8) + gam u 8 := by
      have := gam_add (u := u) (l.length + 2) 8
      rw [show c + 9 = l.length + 2 + 8 by omega]
      linarith
    rw [e, show s - chiSquare c m1 m2 x = (s - A) + (A - chiSquare c m1 m2 x) by ring]
    refine (abs_add_le _ _).trans ?_
    have := mul_le_mul_of_nonneg_left hAW (gam_nonneg h0 h1 (l.length + 2))
    linarith
  · intro hd
    unfold ChiDefined at hd
    push Not at hd
    obtain ⟨y, hy, hyx, hd⟩ := hd
    have zero_entry : ∀ {m : Nat → Nat → Nat}, ExitCounts c m → m x x = 0 → m x y = 0 := by
      intro m hm hz
      have := hm x hx
      rw [hz] at this
      exact (Finset.sum_eq_zero_iff.1 this.symm) y (Finset.mem_erase.2 ⟨hyx, Finset.mem_range.2 hy⟩)
    apply sumF_nan
    rw [List.mem_map]
    refine ⟨y, by simp [hy, hyx], ?_⟩
    rcases Nat.eq_zero_or_pos (m1 x x) with z1 | z1
    · have za := zero_entry e1 z1
      rw [z1, za, Nat.cast_zero]
      exact chiTermF_nan_left (by positivity)
    · rcases Nat.eq_zero_or_pos (m2 x x) with z2 | z2
      · have zb := zero_entry e2 z2
        rw [z2, zb, Nat.cast_zero]
        exact chiTermF_nan_right (by positivity)
      · have := hd z1 z2
        have za : m1 x y = 0 := by omega
        have zb : m2 x y = 0 := by omega
        rw [za, zb, Nat.cast_zero]
        exact chiTermF_nan_zero h0 h1 hf (by exact_mod_cast z1) (by exact_mod_cast z2)

/-- A comparison with a threshold outside the error band is not affected. -/
theorem lt_of_band {x x' B : ℝ} (h : |x' - x| ≤ B) {Q : XR} (hq : ∀ q, Q = .fin q → B < |q - x|) :
    ((XR.fin x').lt Q ↔ (XR.fin x).lt Q) ∧ (Q.lt (.fin x') ↔ Q.lt (.fin x)) := by
  cases Q with
  | nan => exact ⟨Iff.rfl, Iff.rfl⟩
  | pinf => exact ⟨Iff.rfl, Iff.rfl⟩
  | ninf => exact ⟨Iff.rfl, Iff.rfl⟩
  | fin q =>
    have h1 := hq q rfl
    have h2 := abs_le.1 h
    show (x' < q ↔ x < q) ∧ (q < x' ↔ q < x)
    rcases lt_abs.1 h1 with h3 | h3
    · have hB : 0 ≤ B := (abs_nonneg _).trans h
      constructor <;> constructor <;> intro <;> linarith
    · have hB : 0 ≤ B := (abs_nonneg _).trans h
      constructor <;> constructor <;> intro <;> linarith

end
end PyCTBN
