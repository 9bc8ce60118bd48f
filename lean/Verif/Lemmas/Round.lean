import Verif.Model.Round
import Mathlib.Tactic.Ring
import Mathlib.Tactic.FieldSimp
import Mathlib.Tactic.Positivity
import Mathlib.Tactic.NormNum

namespace PyCTBN

theorem rint_bounds (q : ℚ) : ⌊q⌋ ≤ rint q ∧ rint q ≤ ⌊q⌋ + 1 := by
  unfold rint
  split
  · omega
  · split
    · omega
    · split <;> omega

theorem rint_near (q : ℚ) : |(rint q : ℚ) - q| ≤ 1 / 2 := by
  have h1 := Int.floor_le q
  have h2 := Int.lt_floor_add_one q
  unfold rint
  rw [abs_le]
  split
  · constructor <;> linarith
  · split
    · push_cast; constructor <;> linarith
    · split
      · constructor <;> linarith
      · push_cast; constructor <;> linarith

theorem rint_mono {q r : ℚ} (h : q ≤ r) : rint q ≤ rint r := by
  have hf := Int.floor_le_floor h
  rcases lt_or_eq_of_le hf with hlt | heq
  · have := (rint_bounds q).2
    have := (rint_bounds r).1
    omega
  · have h3 : q - ⌊q⌋ ≤ r - ⌊r⌋ := by rw [heq]; linarith
    unfold rint
    rw [← heq] at h3 ⊢
    generalize ⌊q⌋ = f at *
    by_cases h4 : r - (f : ℚ) < 1 / 2
    · rw [if_pos (lt_of_le_of_lt h3 h4), if_pos h4]
    · rw [if_neg h4]
      by_cases h5 : q - (f : ℚ) < 1 / 2
      · rw [if_pos h5]
        split
        · omega
        · split <;> omega
      · rw [if_neg h5]
        by_cases h6 : 1 / 2 < q - (f : ℚ)
        · rw [if_pos h6, if_pos (lt_of_lt_of_le h6 h3)]
        · rw [if_neg h6]
          split
          · split <;> omega
          · split <;> omega

theorem rint_int (z : ℤ) : rint (z : ℚ) = z := by
  unfold rint
  simp

theorem rint_eq_of_near {q : ℚ} {z : ℤ} (h : |(z : ℚ) - q| < 1 / 2) : rint q = z := by
  have h1 := rint_near q
  rw [abs_lt] at h
  rw [abs_le] at h1
  have h2 : (rint q : ℚ) - z < 1 := by linarith
  have h3 : (-1 : ℚ) < (rint q : ℚ) - z := by linarith
  have h4 : rint q - z < 1 := by exact_mod_cast h2
  have h5 : -1 < rint q - z := by exact_mod_cast h3
  omega

theorem round4_near (q : ℚ) : |round4 q - q| ≤ 1 / 20000 := by
  have := rint_near (q * 10000)
  have e : round4 q - q = ((rint (q * 10000) : ℚ) - q * 10000) / 10000 := by unfold round4; ring
  rw [e, abs_div, abs_of_pos (by norm_num : (0 : ℚ) < 10000)]
  rw [div_le_iff₀ (by norm_num)]
  linarith

theorem round4_mono {q r : ℚ} (h : q ≤ r) : round4 q ≤ round4 r := by
  unfold round4
  have h1 : rint (q * 10000) ≤ rint (r * 10000) := rint_mono (by linarith)
  have h2 : ((rint (q * 10000) : ℤ) : ℚ) ≤ ((rint (r * 10000) : ℤ) : ℚ) := by exact_mod_cast h1
  linarith

theorem round4_zero : round4 0 = 0 := by
  unfold round4
  have : rint ((0 : ℚ) * 10000) = 0 := by rw [zero_mul]; exact_mod_cast rint_int 0
  rw [this]; simp

theorem round4_nonneg {q : ℚ} (h : 0 ≤ q) : 0 ≤ round4 q := by
  have := round4_mono h
  rwa [round4_zero] at this

theorem round4_nonpos {q : ℚ} (h : q ≤ 0) : round4 q ≤ 0 := by
  have := round4_mono h
  rwa [round4_zero] at this

/-- Rounding rounded numbers changes nothing. -/
theorem round4_idem (q : ℚ) : round4 (round4 q) = round4 q := by
  unfold round4
  have : (rint (q * 10000) : ℚ) / 10000 * 10000 = (rint (q * 10000) : ℚ) := by field_simp
  rw [this, rint_int]

end PyCTBN
