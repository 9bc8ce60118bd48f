import Verif.Model.SampleLaw
import Verif.Lemmas.Round
import Verif.Lemmas.Oscillation

/-!
# Rounding a real number to four decimals
-/

open MeasureTheory

namespace PyCTBN

theorem rintR_cast (q : ℚ) : rintR (q : ℝ) = rint q := by
  unfold rintR rint
  rw [Rat.floor_cast]
  have e1 : ((q : ℝ) - (⌊q⌋ : ℝ) < 1 / 2) ↔ (q - ⌊q⌋ < 1 / 2) := by
    rw [← Rat.cast_lt (K := ℝ)]; push_cast; rfl
  have e2 : ((1 : ℝ) / 2 < (q : ℝ) - (⌊q⌋ : ℝ)) ↔ (1 / 2 < q - ⌊q⌋) := by
    rw [← Rat.cast_lt (K := ℝ)]; push_cast; rfl
  simp only [e1, e2]

theorem round4R_cast (q : ℚ) : round4R (q : ℝ) = round4 q := by
  unfold round4R round4
  have : (q : ℝ) * 10000 = ((q * 10000 : ℚ) : ℝ) := by push_cast; rfl
  rw [this, rintR_cast]

theorem rintR_near (x : ℝ) : |(rintR x : ℝ) - x| ≤ 1 / 2 := by
  have h1 := Int.floor_le x
  have h2 := Int.lt_floor_add_one x
  unfold rintR
  rw [abs_le]
  split
  · constructor <;> linarith
  · split
    · push_cast; constructor <;> linarith
    · split
      · constructor <;> linarith
      · push_cast; constructor <;> linarith

theorem rintR_mono {x y : ℝ} (h : x ≤ y) : rintR x ≤ rintR y := by
  have hf := Int.floor_le_floor h
  have hb : ∀ x : ℝ, ⌊x⌋ ≤ rintR x ∧ rintR x ≤ ⌊x⌋ + 1 := by
    intro x
    unfold rintR
    split
    · omega
    · split
      · omega
      · split <;> omega
  rcases lt_or_eq_of_le hf with hlt | heq
  · have := (hb x).2
    have := (hb y).1
    omega
  · have h3 : x - ⌊x⌋ ≤ y - ⌊y⌋ := by rw [heq]; linarith
    unfold rintR
    rw [← heq] at h3 ⊢
    generalize ⌊x⌋ = f at *
    by_cases h4 : y - (f : ℝ) < 1 / 2
    · rw [if_pos (lt_of_le_of_lt h3 h4), if_pos h4]
    · rw [if_neg h4]
      by_cases h5 : x - (f : ℝ) < 1 / 2
      · rw [if_pos h5]
        split
        · omega
        · split <;> omega
      · rw [if_neg h5]
        by_cases h6 : 1 / 2 < x - (f : ℝ)
        · rw [if_pos h6, if_pos (lt_of_lt_of_le h6 h3)]
        · rw [if_neg h6]
          split
          · split <;> omega
          · split <;> omega

theorem rintR_add_two (x : ℝ) : rintR (x + 2) = rintR x + 2 := by
  have hf : ⌊x + 2⌋ = ⌊x⌋ + 2 := by exact_mod_cast Int.floor_add_intCast x 2
  unfold rintR
  rw [hf]
  have e : x + 2 - ((⌊x⌋ + 2 : ℤ) : ℝ) = x - ⌊x⌋ := by push_cast; ring
  rw [e]
  have e2 : (⌊x⌋ + 2) % 2 = ⌊x⌋ % 2 := by omega
  rw [e2]
  split_ifs <;> ring

theorem round4R_mono {x y : ℝ} (h : x ≤ y) : round4R x ≤ round4R y := by
  unfold round4R
  have : rintR (x * 10000) ≤ rintR (y * 10000) := rintR_mono (by linarith)
  have : (rintR (x * 10000) : ℚ) ≤ rintR (y * 10000) := by exact_mod_cast this
  linarith

/-- The rounding error. -/
noncomputable def roundError (t : ℝ) : ℝ := (round4R t : ℝ) - t

theorem measurable_round4R : Measurable (fun t : ℝ => (round4R t : ℝ)) :=
  Monotone.measurable (fun x y h => by exact_mod_cast round4R_mono h)

theorem measurable_roundError : Measurable roundError := measurable_round4R.sub measurable_id

theorem abs_roundError_le (t : ℝ) : |roundError t| ≤ 1 / 20000 := by
  have h := abs_le.1 (rintR_near (t * 10000))
  unfold roundError round4R
  push_cast
  rw [abs_le]
  constructor <;> linarith [h.1, h.2]

theorem roundError_periodic : Function.Periodic roundError (1 / 5000) := by
  intro t
  unfold roundError round4R
  rw [show (t + 1 / 5000) * 10000 = t * 10000 + 2 by ring, rintR_add_two]
  push_cast
  ring

/-- The rounding error oscillates around its mean. -/
theorem roundError_osc : ∃ m : ℝ, JumpPaths.Osc (1 / 5000) (1 / 20000 + |m|) (fun t => roundError t - m) := by
  set p : ℝ := 1 / 5000 with hp
  refine ⟨(∫ t in (0 : ℝ)..p, roundError t) / p, measurable_roundError.sub_const _, fun t => ?_, fun t => ?_, ?_⟩
  · have := roundError_periodic t
    rw [← hp] at this
    simp only [this]
  · exact (abs_sub _ _).trans (by gcongr; exact abs_roundError_le t)
  · rw [intervalIntegral.integral_sub (JumpPaths.bounded_intervalIntegrable measurable_roundError abs_roundError_le _ _) intervalIntegrable_const,
      intervalIntegral.integral_const]
    have : p ≠ 0 := by norm_num [hp]
    simp only [sub_zero, smul_eq_mul]
    field_simp
    ring

end PyCTBN
