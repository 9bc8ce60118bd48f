import Verif.Spec.Float
import Verif.Lemmas.Round
import Mathlib.Tactic.Linarith
import Mathlib.Tactic.Positivity
import Mathlib.Tactic.FieldSimp
import Mathlib.Tactic.Ring

/-! # Lemmas on rounded arithmetic -/

namespace PyCTBN
open Spec

section
variable {K : Type} [Field K] [LinearOrder K] [IsStrictOrderedRing K] {u : K}

theorem near_refl (x : K) : Near u 0 x x := ⟨1, by simp, by simp, by simp⟩

theorem pow_le_one_sub (h0 : 0 ≤ u) (h1 : u < 1) (m : Nat) : 0 < (1 - u) ^ m ∧ (1 - u) ^ m ≤ 1 :=
  ⟨pow_pos (by linarith) m, pow_le_one₀ (by linarith) (by linarith)⟩

theorem near_mono (h0 : 0 ≤ u) (h1 : u < 1) {m k : Nat} (h : m ≤ k) {x y : K} (hn : Near u m x y) : Near u k x y := by
  obtain ⟨θ, a, b, e⟩ := hn
  have hk : (1 - u) ^ k ≤ (1 - u) ^ m := pow_le_pow_of_le_one (by linarith) (by linarith) h
  exact ⟨θ, hk.trans a, b.trans (inv_anti₀ (pow_le_one_sub h0 h1 k).1 hk), e⟩

theorem near_trans (h0 : 0 ≤ u) (h1 : u < 1) {m k : Nat} {x y z : K} (h : Near u m x y) (h' : Near u k y z) : Near u (m + k) x z := by
  obtain ⟨θ, a, b, rfl⟩ := h
  obtain ⟨η, a', b', rfl⟩ := h'
  have p := pow_le_one_sub h0 h1 m
  have p' := pow_le_one_sub h0 h1 k
  refine ⟨θ * η, ?_, ?_, by ring⟩
  · rw [pow_add]
    exact mul_le_mul a a' p'.1.le (p.1.le.trans a)
  · rw [pow_add, mul_inv]
    exact mul_le_mul b b' (p'.1.le.trans a') (inv_nonneg.2 p.1.le)

theorem near_rnd (h0 : 0 ≤ u) (h1 : u < 1) {rnd : K → K} (ha : Accurate u rnd) (x : K) : Near u 1 (rnd x) x := by
  have h := ha x
  by_cases hx : x = 0
  · subst hx
    simp only [abs_zero, mul_zero, sub_zero] at h
    have : rnd 0 = 0 := abs_nonpos_iff.1 h
    exact ⟨1, by rw [pow_one]; linarith, by rw [pow_one]; exact (one_le_inv₀ (by linarith)).2 (by linarith), by rw [this]; ring⟩
  · have hx' : 0 < |x| := abs_pos.2 hx
    refine ⟨rnd x / x, ?_, ?_, by field_simp⟩
    all_goals
      have h2 : |rnd x / x - 1| ≤ u := by
        rw [show rnd x / x - 1 = (rnd x - x) / x by field_simp, abs_div, div_le_iff₀ hx']
        exact h
      have h3 := abs_le.1 h2
      rw [pow_one]
    · linarith
    · have : 1 + u ≤ (1 - u)⁻¹ := by
        rw [le_inv_comm₀ (by linarith) (by linarith), ← one_div, le_div_iff₀ (by linarith)]
        nlinarith
      linarith

theorem near_add (h0 : 0 ≤ u) (h1 : u < 1) {m : Nat} {x y x' y' : K} (hy : 0 ≤ y) (hy' : 0 ≤ y') (h : Near u m x y) (h' : Near u m x' y') :
    Near u m (x + x') (y + y') := by
  obtain ⟨θ, a, b, rfl⟩ := h
  obtain ⟨η, a', b', rfl⟩ := h'
  have p := pow_le_one_sub h0 h1 m
  by_cases hz : y + y' = 0
  · have e1 : y = 0 := by linarith
    have e2 : y' = 0 := by linarith
    exact ⟨1, p.2, (one_le_inv₀ p.1).2 p.2, by simp [e1, e2]⟩
  · have hpos : 0 < y + y' := lt_of_le_of_ne (by linarith) (Ne.symm hz)
    refine ⟨(θ * y + η * y') / (y + y'), ?_, ?_, by field_simp⟩
    · rw [le_div_iff₀ hpos]; nlinarith
    · rw [div_le_iff₀ hpos]; nlinarith

theorem near_div (h0 : 0 ≤ u) (h1 : u < 1) {m k : Nat} {x y x' y' : K} (h : Near u m x y) (h' : Near u k x' y') :
    Near u (m + k) (x / x') (y / y') := by
  obtain ⟨θ, a, b, rfl⟩ := h
  obtain ⟨η, a', b', rfl⟩ := h'
  have p := pow_le_one_sub h0 h1 m
  have p' := pow_le_one_sub h0 h1 k
  have hη : 0 < η := p'.1.trans_le a'
  refine ⟨θ / η, ?_, ?_, by rw [mul_div_mul_comm]⟩
  · rw [pow_add, div_eq_mul_inv]
    refine mul_le_mul a ?_ p'.1.le (p.1.le.trans a)
    rw [le_inv_comm₀ p'.1 hη]; exact b'
  · rw [pow_add, mul_inv, div_eq_mul_inv]
    refine mul_le_mul b ?_ (inv_nonneg.2 hη.le) (inv_nonneg.2 p.1.le)
    exact inv_anti₀ p'.1 a'

/-- Bounds instead of a factor. -/
theorem near_bounds {m : Nat} {x y : K} (hy : 0 ≤ y) (h : Near u m x y) :
    (1 - u) ^ m * y ≤ x ∧ x ≤ ((1 - u) ^ m)⁻¹ * y := by
  obtain ⟨θ, a, b, rfl⟩ := h
  exact ⟨mul_le_mul_of_nonneg_right a hy, mul_le_mul_of_nonneg_right b hy⟩

theorem near_sign (h0 : 0 ≤ u) (h1 : u < 1) {m : Nat} {x y : K} (h : Near u m x y) :
    (x = 0 ↔ y = 0) ∧ (0 < x ↔ 0 < y) ∧ (x < 0 ↔ y < 0) := by
  obtain ⟨θ, a, b, rfl⟩ := h
  have hθ : 0 < θ := (pow_le_one_sub h0 h1 m).1.trans_le a
  refine ⟨by simp [hθ.ne'], mul_pos_iff_of_pos_left hθ, ?_⟩
  rw [mul_neg_iff]
  constructor
  · rintro (h | h)
    · exact h.2
    · linarith
  · intro h
    exact .inl ⟨hθ, h⟩

theorem accurate_zero {rnd : K → K} (ha : Accurate u rnd) : rnd 0 = 0 := by
  have h := ha 0
  simp only [abs_zero, mul_zero, sub_zero] at h
  exact abs_nonpos_iff.1 h

end

variable {u : ℚ}

theorem fsum_near_aux (h0 : 0 ≤ u) (h1 : u < 1) {rnd : ℚ → ℚ} (ha : Accurate u rnd) {k : Nat} :
    ∀ (ws ws' : List ℚ), List.Forall₂ (fun w w' => Near u k w w' ∧ 0 ≤ w') ws ws' → ∀ (j : Nat) (a a' : ℚ), Near u j a a' → 0 ≤ a' → k ≤ j →
      Near u (j + ws.length) (ws.foldl (fun a w => rnd (a + w)) a) (a' + ws'.sum) := by
  intro ws ws' h
  induction h with
  | nil => intro j a a' hn _ _; simpa using hn
  | @cons w w' ws ws' hw hrest ih =>
    intro j a a' hn ha' hkj
    simp only [List.foldl_cons, List.length_cons, List.sum_cons]
    have hs := near_add h0 h1 ha' hw.2 hn (near_mono h0 h1 hkj hw.1)
    have hr := near_trans h0 h1 (near_rnd h0 h1 ha (a + w)) hs
    have := ih (1 + j) _ _ hr (by linarith [hw.2]) (by omega)
    rw [show j + (ws.length + 1) = 1 + j + ws.length by omega, ← add_assoc]
    exact this

/-- A rounded sum of non-negative numbers, each already off by `k` errors. -/
theorem fsum_near (h0 : 0 ≤ u) (h1 : u < 1) {rnd : ℚ → ℚ} (ha : Accurate u rnd) {k : Nat} {ws ws' : List ℚ}
    (h : List.Forall₂ (fun w w' => Near u k w w' ∧ 0 ≤ w') ws ws') : Near u (k + ws.length) (fsum rnd ws) ws'.sum := by
  have := fsum_near_aux h0 h1 ha ws ws' h k 0 0 ⟨1, (pow_le_one_sub h0 h1 k).2, (one_le_inv₀ (pow_le_one_sub h0 h1 k).1).2 (pow_le_one_sub h0 h1 k).2, by simp⟩
    le_rfl le_rfl
  rwa [zero_add] at this

/-- Sums of multiples of `d` that stay in the exact range are exact. -/
theorem fsum_exact_aux {rnd : ℚ → ℚ} {d : ℚ} {N : Nat} (hex : ∀ z : Nat, z ≤ N → rnd (z * d) = z * d) :
    ∀ (ns : List Nat) (a : Nat), a + ns.sum ≤ N → (ns.map (fun n : Nat => (n : ℚ) * d)).foldl (fun a w => rnd (a + w)) (a * d) = ((a + ns.sum : Nat) : ℚ) * d := by
  intro ns
  induction ns with
  | nil => intro a _; simp
  | cons n ns ih =>
    intro a h
    rw [List.sum_cons] at h
    simp only [List.map_cons, List.foldl_cons, List.sum_cons]
    have : rnd ((a : ℚ) * d + n * d) = ((a + n : Nat) : ℚ) * d := by
      rw [← add_mul, ← Nat.cast_add]
      exact hex _ (by omega)
    rw [this, ih (a + n) (by omega), Nat.add_assoc]

theorem fsum_exact {rnd : ℚ → ℚ} {d : ℚ} {N : Nat} (hex : ∀ z : Nat, z ≤ N → rnd (z * d) = z * d) (ns : List Nat) (h : ns.sum ≤ N) :
    fsum rnd (ns.map (fun n : Nat => (n : ℚ) * d)) = (ns.sum : ℚ) * d := by
  have := fsum_exact_aux hex ns 0 (by omega)
  simpa [fsum] using this

/-! ## Binary floating point -/

theorem binRound_accurate (p : Nat) : Accurate (1 / 2 ^ p) (binRound p) := by
  intro x
  by_cases hx : x = 0
  · subst hx
    simp [binRound, show rint (0 : ℚ) = 0 by simpa using rint_int 0]
  · have hx' : 0 < |x| := abs_pos.2 hx
    set e := Int.log 2 |x|
    have hulp : (0 : ℚ) < 2 ^ (e - p + 1) := zpow_pos (by norm_num) _
    have h1 := rint_near (x / 2 ^ (e - p + 1))
    have h2 : binRound p x - x = ((rint (x / 2 ^ (e - p + 1)) : ℚ) - x / 2 ^ (e - p + 1)) * 2 ^ (e - p + 1) := by
      show (rint (x / 2 ^ (e - p + 1)) : ℚ) * 2 ^ (e - p + 1) - x = _
      rw [sub_mul, div_mul_cancel₀ _ hulp.ne']
    rw [h2, abs_mul, abs_of_pos hulp]
    have h3 : (2 : ℚ) ^ e ≤ |x| := by
      have := Int.zpow_log_le_self (b := 2) (by norm_num) hx'
      simpa using this
    calc |(rint (x / 2 ^ (e - p + 1)) : ℚ) - x / 2 ^ (e - p + 1)| * 2 ^ (e - p + 1)
        ≤ 1 / 2 * 2 ^ (e - p + 1) := mul_le_mul_of_nonneg_right h1 hulp.le
      _ = 1 / 2 ^ p * 2 ^ e := by
        rw [zpow_add₀ (by norm_num), zpow_sub₀ (by norm_num), zpow_one, zpow_natCast]
        field_simp
      _ ≤ 1 / 2 ^ p * |x| := mul_le_mul_of_nonneg_left h3 (by positivity)

/-- A multiple of a power of two with at most `p` bits is exact. -/
theorem binRound_exact (p : Nat) (hp : 0 < p) (z : ℤ) (k : ℤ) (h : z.natAbs ≤ 2 ^ p) : binRound p ((z : ℚ) * 2 ^ k) = (z : ℚ) * 2 ^ k := by
  by_cases hz : z = 0
  · subst hz
    simp [binRound, show rint (0 : ℚ) = 0 by simpa using rint_int 0]
  · set x : ℚ := (z : ℚ) * 2 ^ k
    have hk : (0 : ℚ) < 2 ^ k := zpow_pos (by norm_num) _
    have hz' : (0 : ℚ) < |(z : ℚ)| := abs_pos.2 (by exact_mod_cast hz)
    have habs : |x| = |(z : ℚ)| * 2 ^ k := by rw [abs_mul, abs_of_pos hk]
    have hx' : 0 < |x| := by rw [habs]; positivity
    have hzle : |(z : ℚ)| ≤ 2 ^ p := by
      have : ((z.natAbs : Nat) : ℚ) ≤ ((2 ^ p : Nat) : ℚ) := by exact_mod_cast h
      rw [Nat.cast_natAbs] at this
      push_cast at this
      simpa using this
    have hlog : (2 : ℚ) ^ Int.log 2 |x| ≤ |x| := by
      have := Int.zpow_log_le_self (b := 2) (by norm_num) hx'
      simpa using this
    -- the unit in the last place divides
    have hint : ∃ w : ℤ, x / 2 ^ (Int.log 2 |x| - p + 1) = w := by
      have hle : Int.log 2 |x| ≤ k + p := by
        have : (2 : ℚ) ^ Int.log 2 |x| ≤ 2 ^ (k + p) := by
          rw [zpow_add₀ (by norm_num), zpow_natCast]
          calc (2 : ℚ) ^ Int.log 2 |x| ≤ |x| := hlog
            _ = |(z : ℚ)| * 2 ^ k := habs
            _ ≤ 2 ^ p * 2 ^ k := mul_le_mul_of_nonneg_right hzle hk.le
            _ = 2 ^ k * 2 ^ p := mul_comm _ _
        exact (zpow_le_zpow_iff_right₀ (by norm_num)).1 this
      by_cases hlt : Int.log 2 |x| < k + p
      · obtain ⟨j, hj⟩ : ∃ j : Nat, k - (Int.log 2 |x| - p + 1) = j := ⟨(k - (Int.log 2 |x| - p + 1)).toNat, by omega⟩
        refine ⟨z * 2 ^ j, ?_⟩
        rw [mul_div_assoc, ← zpow_sub₀ (by norm_num), hj, zpow_natCast]
        push_cast; ring
      · have heq : Int.log 2 |x| = k + p := by omega
        -- then `|z| = 2 ^ p`
        have hge : (2 : ℚ) ^ p ≤ |(z : ℚ)| := by
          rw [heq, habs, zpow_add₀ (by norm_num), zpow_natCast, mul_comm] at hlog
          exact le_of_mul_le_mul_right hlog hk
        have hzeq : |(z : ℚ)| = 2 ^ p := le_antisymm hzle hge
        rw [heq, show k + (p : ℤ) - p + 1 = k + 1 by ring, mul_div_assoc, ← zpow_sub₀ (by norm_num), show k - (k + 1) = -1 by ring]
        obtain ⟨q, rfl⟩ : ∃ q, p = q + 1 := ⟨p - 1, by omega⟩
        rcases abs_choice (z : ℚ) with hs | hs
        · refine ⟨2 ^ q, ?_⟩
          rw [← hs, hzeq]; push_cast; rw [pow_succ]; simp
        · refine ⟨-2 ^ q, ?_⟩
          have : (z : ℚ) = - 2 ^ (q + 1) := by rw [← hzeq, hs]; ring
          rw [this]; push_cast; rw [pow_succ]; simp
    obtain ⟨w, hw⟩ := hint
    show (rint (x / 2 ^ (Int.log 2 |x| - p + 1)) : ℚ) * 2 ^ (Int.log 2 |x| - p + 1) = x
    rw [hw, rint_int, ← hw, div_mul_cancel₀ _ (zpow_pos (by norm_num) _).ne']

theorem binRound_exactInts (p : Nat) (hp : 0 < p) : ExactInts (2 ^ p) (binRound p) := by
  intro z hz
  have := binRound_exact p hp z 0 hz
  simpa using this

end PyCTBN
