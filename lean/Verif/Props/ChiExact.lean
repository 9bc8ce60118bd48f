import Verif.Props.Indep
import Mathlib.Tactic.LinearCombination

/-!
# C180: exactly which differences the chi-square part can detect
-/

namespace PyCTBN
open Spec Indep

/-- Repeating the data `k` times keeps the exits-are-sums law of count matrices. -/
theorem exitCounts_mul {c : Nat} {m : Nat → Nat → Nat} (h : ExitCounts c m) (k : Nat) : ExitCounts c (fun i j => k * m i j) := by
  intro x hx
  show k * m x x = _
  rw [h x hx, Finset.mul_sum]

/-- **C180** Let the quantile be a non-negative number (as those of a chi-square distribution). More data of the same
proportions make the chi-square part reject at state `x` if and only if the state was left in both samples, every
transition out of it was observed in one of them, and some next-state proportion differs. Otherwise no amount of such data
does. -/
theorem chi_eventually_rejects_iff (P : IndepParams) {c : Nat} {m1 m2 : Nat → Nat → Nat} {x : Nat} {q : ℝ}
    (hq : P.chi2Ppf (1 - P.chiTestAlfa) ((c : ℝ) - 1) = .fin q) (h0 : 0 ≤ q) :
    ((∃ K : Nat, ∀ k ≥ K, ChiExceeds P c (fun i j => k * m1 i j) (fun i j => k * m2 i j) x) ↔
      ChiDefined c m1 m2 x ∧ ∃ y, y < c ∧ y ≠ x ∧ m1 x x * m2 x y ≠ m2 x x * m1 x y) ∧
    ((∃ k : Nat, ChiExceeds P c (fun i j => k * m1 i j) (fun i j => k * m2 i j) x) →
      ChiDefined c m1 m2 x ∧ ∃ y, y < c ∧ y ≠ x ∧ m1 x x * m2 x y ≠ m2 x x * m1 x y) := by
  have key : ∀ k : Nat, ChiExceeds P c (fun i j => k * m1 i j) (fun i j => k * m2 i j) x →
      ChiDefined c m1 m2 x ∧ ∃ y, y < c ∧ y ≠ x ∧ m1 x x * m2 x y ≠ m2 x x * m1 x y := by
    rintro k ⟨hd, hlt⟩
    rw [hq] at hlt
    have hlt' : q < chiSquare c (fun i j => k * m1 i j) (fun i j => k * m2 i j) x := hlt
    refine ⟨fun y hy hyx => ?_, ?_⟩
    · obtain ⟨a, b, d⟩ := hd y hy hyx
      have d' : 0 < k * (m1 x y + m2 x y) := by rw [Nat.mul_add]; exact d
      exact ⟨Nat.pos_of_mul_pos_left a, Nat.pos_of_mul_pos_left b, Nat.pos_of_mul_pos_left d'⟩
    · by_contra hno
      push Not at hno
      have : chiSquare c (fun i j => k * m1 i j) (fun i j => k * m2 i j) x = 0 := by
        unfold chiSquare
        apply Finset.sum_eq_zero
        intro y hy
        simp only [Finset.mem_erase, Finset.mem_range] at hy
        have e : (m1 x x : ℝ) * m2 x y = m2 x x * m1 x y := by exact_mod_cast hno y hy.2 hy.1
        have : ((k * m1 x x : ℕ) : ℝ) * ((k * m2 x y : ℕ) : ℝ) - ((k * m2 x x : ℕ) : ℝ) * ((k * m1 x y : ℕ) : ℝ) = 0 := by
          push_cast
          linear_combination (k : ℝ) ^ 2 * e
        dsimp only
        rw [this]; simp
      rw [this] at hlt'
      exact absurd hlt' (not_lt.2 h0)
  refine ⟨⟨fun ⟨K, hK⟩ => key K (hK K le_rfl), ?_⟩, fun ⟨k, hk⟩ => key k hk⟩
  rintro ⟨hd, y, hy, hyx, hne⟩
  exact chi_test_rejects_eventually_partial P hd hq hy hyx hne

/-- **C180** With a non-negative quantile, the chi-square part can reject for some data on a child with `c` states if and
only if `c ≥ 3`. -/
theorem chi_can_reject_iff (P : IndepParams) {c : Nat} {q : ℝ} (hq : P.chi2Ppf (1 - P.chiTestAlfa) ((c : ℝ) - 1) = .fin q)
    (h0 : 0 ≤ q) :
    (∃ (m1 m2 : Nat → Nat → Nat) (x : Nat), ExitCounts c m1 ∧ ExitCounts c m2 ∧ x < c ∧ ChiExceeds P c m1 m2 x) ↔ 3 ≤ c := by
  constructor
  · rintro ⟨m1, m2, x, h1, h2, hx, h⟩
    by_contra hc
    refine chi_test_void_for_binary_child P (by omega) h1 h2 ?_ hx h
    rw [hq]
    exact not_lt.2 h0
  · intro hc
    -- one sample leaves every state once for each other state, the other once more for the following state
    let m1 : Nat → Nat → Nat := fun x y => if x = y then c - 1 else 1
    let m2 : Nat → Nat → Nat := fun x y => if x = y then c else if y = (x + 1) % c then 2 else 1
    have e1 : ExitCounts c m1 := by
      intro x hx
      have : ∑ y ∈ (Finset.range c).erase x, m1 x y = ∑ y ∈ (Finset.range c).erase x, 1 := by
        apply Finset.sum_congr rfl
        intro y hy
        have := (Finset.mem_erase.1 hy).1
        simp [m1, Ne.symm this]
      rw [this]
      simp [m1, Finset.card_erase_of_mem (Finset.mem_range.2 hx)]
    have hsucc : ∀ x, x < c → (x + 1) % c ≠ x ∧ (x + 1) % c < c := by
      intro x hx
      refine ⟨?_, Nat.mod_lt _ (by omega)⟩
      rcases Nat.lt_or_ge (x + 1) c with h | h
      · rw [Nat.mod_eq_of_lt h]; omega
      · have : x + 1 = c := by omega
        rw [this, Nat.mod_self]; omega
    have e2 : ExitCounts c m2 := by
      intro x hx
      obtain ⟨s1, s2⟩ := hsucc x hx
      have hmem : (x + 1) % c ∈ (Finset.range c).erase x := Finset.mem_erase.2 ⟨s1, Finset.mem_range.2 s2⟩
      have : ∑ y ∈ (Finset.range c).erase x, m2 x y
          = ∑ y ∈ (Finset.range c).erase x, (1 + if (x + 1) % c = y then 1 else 0) := by
        apply Finset.sum_congr rfl
        intro y hy
        have h1 := (Finset.mem_erase.1 hy).1
        simp only [m2, Ne.symm h1, if_false]
        by_cases e : y = (x + 1) % c
        · simp [e]
        · simp [e, Ne.symm e]
      rw [this, Finset.sum_add_distrib, Finset.sum_ite_eq, if_pos hmem]
      simp only [m2, if_true, Finset.sum_const, smul_eq_mul, mul_one, Finset.card_erase_of_mem (Finset.mem_range.2 hx), Finset.card_range]
      omega
    have hd : ChiDefined c m1 m2 0 := by
      intro y hy hy0
      refine ⟨by simp [m1]; omega, by simp [m2]; omega, ?_⟩
      simp [m1, Ne.symm hy0]
    have hne : m1 0 0 * m2 0 2 ≠ m2 0 0 * m1 0 2 := by
      have h2 : (2 : Nat) ≠ (0 + 1) % c := by rw [Nat.mod_eq_of_lt (by omega)]; omega
      simp only [m1, m2, if_true, if_neg h2]
      simp
      omega
    obtain ⟨K, hK⟩ := chi_test_rejects_eventually_partial P hd hq (y := 2) (by omega) (by omega) hne
    exact ⟨_, _, 0, exitCounts_mul e1 K, exitCounts_mul e2 K, by omega, hK K le_rfl⟩

/-! Non-vacuity: counts with the property and counts without it (the proportions are equal). -/

example : ∃ m1 m2 : Nat → Nat → Nat, ExitCounts 3 m1 ∧ ExitCounts 3 m2 ∧
    (ChiDefined 3 m1 m2 0 ∧ ∃ y, y < 3 ∧ y ≠ 0 ∧ m1 0 0 * m2 0 y ≠ m2 0 0 * m1 0 y) := by
  refine ⟨fun x y => if x = y then 2 else 1, fun x y => if x = y then 4 else if y = (x + 1) % 3 then 1 else 3, ?_, ?_, ?_, 1, by decide⟩
  · intro x hx; interval_cases x <;> decide
  · intro x hx; interval_cases x <;> decide
  · intro y hy h0; interval_cases y <;> simp at h0 ⊢
example : ¬ ∃ y, y < 3 ∧ y ≠ 0 ∧ (fun x y => if x = y then 2 else 1 : Nat → Nat → Nat) 0 0 *
    (fun x y => if x = y then 4 else 2 : Nat → Nat → Nat) 0 y ≠
    (fun x y => if x = y then 4 else 2 : Nat → Nat → Nat) 0 0 * (fun x y => if x = y then 2 else 1 : Nat → Nat → Nat) 0 y := by
  rintro ⟨y, hy, h0, h⟩; interval_cases y <;> simp_all

end PyCTBN
