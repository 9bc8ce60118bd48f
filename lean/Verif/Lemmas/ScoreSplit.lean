import Verif.Lemmas.ScoreAsym

/-!
# Splitting a cell by the state of one more parent
-/

namespace PyCTBN
open Spec Filter Topology

section
variable {Z T : Finset Nat} {m : Nat → Nat → Nat} {t : Nat → ℝ}

/-- Statistics of a cell split by `z ∈ Z`: times are not negative, and nothing happens in no time. -/
structure SplitOK (Z T : Finset Nat) (m : Nat → Nat → Nat) (t : Nat → ℝ) : Prop where
  nonneg : ∀ z ∈ Z, 0 ≤ t z
  zero : ∀ z ∈ Z, t z = 0 → ∀ y ∈ T, m z y = 0

theorem log_gain_term {a b M S : ℝ} (ha : 0 ≤ a) (hb : 0 ≤ b) (hab : b = 0 → a = 0) (hM : 0 < M) (hS : 0 < S) :
    a - b * (M / S) ≤ a * Real.log a - a * Real.log b - a * (Real.log M - Real.log S) ∧
    (0 < b → a / b ≠ M / S → a - b * (M / S) < a * Real.log a - a * Real.log b - a * (Real.log M - Real.log S)) := by
  rcases ha.eq_or_lt with h0 | hpos
  · rw [← h0]
    have : 0 ≤ b * (M / S) := by positivity
    refine ⟨by simpa using this, fun hb' _ => ?_⟩
    have : 0 < b * (M / S) := by positivity
    simpa using this
  · have hbp : 0 < b := lt_of_le_of_ne hb (fun h => hpos.ne' (hab h.symm))
    obtain ⟨r, hr⟩ : ∃ r, r = (M / S) * (b / a) := ⟨_, rfl⟩
    have hrp : 0 < r := by rw [hr]; positivity
    have e1 : a * Real.log a - a * Real.log b - a * (Real.log M - Real.log S) = a * -Real.log r := by
      rw [hr, Real.log_mul (by positivity) (by positivity), Real.log_div hM.ne' hS.ne', Real.log_div hbp.ne' hpos.ne']
      ring
    have e2 : a - b * (M / S) = a * (1 - r) := by
      rw [hr]
      field_simp
    rw [e1, e2]
    refine ⟨mul_le_mul_of_nonneg_left (by linarith [Real.log_le_sub_one_of_pos hrp]) hpos.le, fun _ hne => mul_lt_mul_of_pos_left ?_ hpos⟩
    have : r ≠ 1 := by
      intro h1
      apply hne
      rw [hr] at h1
      field_simp at h1 ⊢
      linarith
    linarith [Real.log_lt_sub_one_of_pos hrp this]

/-- What a split gains for one target. -/
noncomputable def targetGain (Z : Finset Nat) (m : Nat → Nat) (t : Nat → ℝ) : ℝ :=
  ∑ z ∈ Z, ((m z : ℝ) * Real.log (m z) - m z * Real.log (t z)) - ((∑ z ∈ Z, m z : ℕ) * Real.log (∑ z ∈ Z, m z : ℕ) -
    (∑ z ∈ Z, m z : ℕ) * Real.log (∑ z ∈ Z, t z))

theorem targetGain_nonneg {m : Nat → Nat} (hn : ∀ z ∈ Z, 0 ≤ t z) (h0 : ∀ z ∈ Z, t z = 0 → m z = 0) : 0 ≤ targetGain Z m t ∧
    (∀ z ∈ Z, ∀ z' ∈ Z, 0 < t z → 0 < t z' → (m z : ℝ) / t z ≠ m z' / t z' → 0 < targetGain Z m t) := by
  by_cases hM : ∑ z ∈ Z, m z = 0
  · have hz : ∀ z ∈ Z, m z = 0 := fun z hz => (Finset.sum_eq_zero_iff.1 hM) z hz
    constructor
    · unfold targetGain
      rw [hM, Finset.sum_eq_zero (fun z h => by simp [hz z h])]
      simp
    · intro z h z' h' _ _ hne
      simp [hz z h, hz z' h'] at hne
  · have hMp : (0 : ℝ) < (∑ z ∈ Z, m z : ℕ) := by exact_mod_cast Nat.pos_of_ne_zero hM
    have hS : 0 < ∑ z ∈ Z, t z := by
      obtain ⟨z, hz, hzm⟩ : ∃ z ∈ Z, m z ≠ 0 := by
        by_contra hcon
        push Not at hcon
        exact hM (Finset.sum_eq_zero hcon)
      exact Finset.sum_pos' hn ⟨z, hz, lt_of_le_of_ne (hn z hz) (fun h => hzm (h0 z hz h.symm))⟩
    have e : targetGain Z m t = ∑ z ∈ Z, ((m z : ℝ) * Real.log (m z) - m z * Real.log (t z) -
        m z * (Real.log (∑ z ∈ Z, m z : ℕ) - Real.log (∑ z ∈ Z, t z))) := by
      unfold targetGain
      rw [Finset.sum_sub_distrib (g := fun z => (m z : ℝ) * (Real.log (∑ z ∈ Z, m z : ℕ) - Real.log (∑ z ∈ Z, t z))), ← Finset.sum_mul]
      push_cast
      ring
    have es : ∑ z ∈ Z, ((m z : ℝ) - t z * ((∑ z ∈ Z, m z : ℕ) / ∑ z ∈ Z, t z)) = 0 := by
      rw [Finset.sum_sub_distrib, ← Finset.sum_mul]
      push_cast
      field_simp
      ring
    have term := fun z (hz : z ∈ Z) => log_gain_term (a := (m z : ℝ)) (b := t z) (by positivity) (hn z hz) (fun h => by simp [h0 z hz h]) hMp hS
    refine ⟨by rw [e, ← es]; exact Finset.sum_le_sum (fun z hz => (term z hz).1), fun z hz z' hz' hp hp' hne => ?_⟩
    rw [e, ← es]
    by_cases h1 : (m z : ℝ) / t z = (∑ z ∈ Z, m z : ℕ) / ∑ z ∈ Z, t z
    · exact Finset.sum_lt_sum (fun z hz => (term z hz).1) ⟨z', hz', (term z' hz').2 hp' (fun h => hne (h1.trans h.symm))⟩
    · exact Finset.sum_lt_sum (fun z hz => (term z hz).1) ⟨z, hz, (term z hz).2 hp h1⟩

theorem const_rate {m : Nat → Nat} (hn : ∀ z ∈ Z, 0 ≤ t z) (h0 : ∀ z ∈ Z, t z = 0 → m z = 0)
    (hc : ∀ z ∈ Z, ∀ z' ∈ Z, 0 < t z → 0 < t z' → (m z : ℝ) / t z = m z' / t z') :
    ∀ z ∈ Z, (m z : ℝ) * (∑ z ∈ Z, t z) = t z * (∑ z ∈ Z, m z : ℕ) := by
  intro z hz
  rcases (hn z hz).eq_or_lt with h | hp
  · rw [← h, h0 z hz h.symm]; simp
  · push_cast
    rw [Finset.mul_sum, Finset.mul_sum]
    refine Finset.sum_congr rfl (fun z' hz' => ?_)
    rcases (hn z' hz').eq_or_lt with h' | hp'
    · rw [← h', h0 z' hz' h'.symm]; simp
    · have := hc z hz z' hz' hp hp'
      field_simp at this
      linarith

theorem targetGain_zero {m : Nat → Nat} (hn : ∀ z ∈ Z, 0 ≤ t z) (h0 : ∀ z ∈ Z, t z = 0 → m z = 0)
    (hc : ∀ z ∈ Z, ∀ z' ∈ Z, 0 < t z → 0 < t z' → (m z : ℝ) / t z = m z' / t z') : targetGain Z m t = 0 := by
  have hcr := const_rate hn h0 hc
  have e : targetGain Z m t = ∑ z ∈ Z, ((m z : ℝ) * Real.log (m z) - m z * Real.log (t z) -
      m z * (Real.log (∑ z ∈ Z, m z : ℕ) - Real.log (∑ z ∈ Z, t z))) := by
    unfold targetGain
    rw [Finset.sum_sub_distrib (g := fun z => (m z : ℝ) * (Real.log (∑ z ∈ Z, m z : ℕ) - Real.log (∑ z ∈ Z, t z))), ← Finset.sum_mul]
    push_cast
    ring
  rw [e]
  refine Finset.sum_eq_zero (fun z hz => ?_)
  by_cases hm : m z = 0
  · simp [hm]
  have hmp : (0 : ℝ) < m z := by exact_mod_cast Nat.pos_of_ne_zero hm
  have htp : 0 < t z := lt_of_le_of_ne (hn z hz) (fun h => hm (h0 z hz h.symm))
  have hS : 0 < ∑ z ∈ Z, t z := Finset.sum_pos' hn ⟨z, hz, htp⟩
  have hM : (0 : ℝ) < (∑ z ∈ Z, m z : ℕ) := by
    exact_mod_cast lt_of_lt_of_le (Nat.pos_of_ne_zero hm) (Finset.single_le_sum (f := m) (fun _ _ => Nat.zero_le _) hz)
  have h1 := congrArg Real.log (hcr z hz)
  rw [Real.log_mul hmp.ne' hS.ne', Real.log_mul htp.ne' hM.ne'] at h1
  rw [show (m z : ℝ) * Real.log (m z) - m z * Real.log (t z) - m z * (Real.log (∑ z ∈ Z, m z : ℕ) - Real.log (∑ z ∈ Z, t z)) =
    m z * ((Real.log (m z) + Real.log (∑ z ∈ Z, t z)) - (Real.log (t z) + Real.log (∑ z ∈ Z, m z : ℕ))) by ring, h1]
  ring

/-- What a split gains in fit. -/
theorem fit_gain : ∑ z ∈ Z, cellFit T (m z) (t z) - cellFit T (fun y => ∑ z ∈ Z, m z y) (∑ z ∈ Z, t z) =
    ∑ y ∈ T, targetGain Z (fun z => m z y) t := by
  unfold cellFit targetGain
  rw [Finset.sum_comm, ← Finset.sum_sub_distrib]
  refine Finset.sum_congr rfl (fun y _ => ?_)
  simp only [Finset.sum_sub_distrib]
  push_cast
  ring

/-- The situations of the split differ in the rate of some target. -/
def SplitDiffers (Z T : Finset Nat) (m : Nat → Nat → Nat) (t : Nat → ℝ) : Prop :=
  ∃ y ∈ T, ∃ z ∈ Z, ∃ z' ∈ Z, 0 < t z ∧ 0 < t z' ∧ (m z y : ℝ) / t z ≠ m z' y / t z'

theorem fit_gain_nonneg (h : SplitOK Z T m t) :
    0 ≤ ∑ z ∈ Z, cellFit T (m z) (t z) - cellFit T (fun y => ∑ z ∈ Z, m z y) (∑ z ∈ Z, t z) := by
  rw [fit_gain]
  exact Finset.sum_nonneg (fun y hy => (targetGain_nonneg h.nonneg (fun z hz hzt => h.zero z hz hzt y hy)).1)

theorem fit_gain_pos (h : SplitOK Z T m t) (hd : SplitDiffers Z T m t) :
    0 < ∑ z ∈ Z, cellFit T (m z) (t z) - cellFit T (fun y => ∑ z ∈ Z, m z y) (∑ z ∈ Z, t z) := by
  rw [fit_gain]
  obtain ⟨y, hy, z, hz, z', hz', hp, hp', hne⟩ := hd
  exact Finset.sum_pos' (fun y hy => (targetGain_nonneg h.nonneg (fun z hz hzt => h.zero z hz hzt y hy)).1)
    ⟨y, hy, (targetGain_nonneg h.nonneg (fun z hz hzt => h.zero z hz hzt y hy)).2 z hz z' hz' hp hp' hne⟩

theorem fit_gain_zero (h : SplitOK Z T m t) (hd : ¬ SplitDiffers Z T m t) :
    ∑ z ∈ Z, cellFit T (m z) (t z) - cellFit T (fun y => ∑ z ∈ Z, m z y) (∑ z ∈ Z, t z) = 0 := by
  rw [fit_gain]
  refine Finset.sum_eq_zero (fun y hy => targetGain_zero h.nonneg (fun z hz hzt => h.zero z hz hzt y hy) (fun z hz z' hz' hp hp' => ?_))
  by_contra hne
  exact hd ⟨y, hy, z, hz, z', hz', hp, hp', hne⟩

theorem price_pos {α w : ℝ} (hα : 0 < α) (hw : 0 < w) (hwα : α = w * T.card) {m : Nat → Nat} {t : ℝ} (ht : t ≠ 0) : 0 < cellPrice α w T m t := by
  unfold cellPrice
  rw [if_neg ht]
  split
  · positivity
  · rename_i hs
    have e : α + ∑ y ∈ T, (if m y = 0 then 0 else 1 / 2 - w) = ∑ y ∈ T, (if m y = 0 then w else 1 / 2) := by
      conv_lhs => rw [hwα]
      rw [mul_comm, ← nsmul_eq_mul, ← Finset.sum_const, ← Finset.sum_add_distrib]
      refine Finset.sum_congr rfl (fun y _ => ?_)
      split <;> ring
    rw [e]
    obtain ⟨y, hy, -⟩ : ∃ y ∈ T, m y ≠ 0 := by
      by_contra hcon
      push Not at hcon
      exact hs (Finset.sum_eq_zero hcon)
    exact Finset.sum_pos (fun y _ => by split <;> positivity) ⟨y, hy⟩

theorem price_nonneg {α w : ℝ} (hα : 0 < α) (hw : 0 < w) (hwα : α = w * T.card) {m : Nat → Nat} {t : ℝ} : 0 ≤ cellPrice α w T m t := by
  by_cases ht : t = 0
  · simp [cellPrice, ht]
  · exact (price_pos hα hw hwα ht).le

/-- Without differences, all occurring situations have the price of the whole. -/
theorem price_same (h : SplitOK Z T m t) (hd : ¬ SplitDiffers Z T m t) {α w : ℝ} {z : Nat} (hz : z ∈ Z) (hp : 0 < t z) :
    cellPrice α w T (m z) (t z) = cellPrice α w T (fun y => ∑ z ∈ Z, m z y) (∑ z ∈ Z, t z) := by
  have hS : 0 < ∑ z ∈ Z, t z := Finset.sum_pos' h.nonneg ⟨z, hz, hp⟩
  have hsup : ∀ y ∈ T, (m z y = 0 ↔ ∑ z ∈ Z, m z y = 0) := by
    intro y hy
    have hcr := const_rate (m := fun z => m z y) h.nonneg (fun z hz hzt => h.zero z hz hzt y hy) (fun z hz z' hz' hp hp' => by
      by_contra hne
      exact hd ⟨y, hy, z, hz, z', hz', hp, hp', hne⟩) z hz
    constructor
    · intro h0
      rw [h0] at hcr
      simp only [Nat.cast_zero, zero_mul] at hcr
      have := (mul_eq_zero.1 hcr.symm).resolve_left hp.ne'
      exact_mod_cast this
    · intro h0
      exact (Finset.sum_eq_zero_iff.1 h0) z hz
  unfold cellPrice
  rw [if_neg hp.ne', if_neg hS.ne']
  have e1 : (∑ y ∈ T, m z y = 0) ↔ (∑ y ∈ T, ∑ z ∈ Z, m z y = 0) := by
    rw [Finset.sum_eq_zero_iff, Finset.sum_eq_zero_iff]
    exact forall₂_congr hsup
  have e2 : ∑ y ∈ T, (if m z y = 0 then (0 : ℝ) else 1 / 2 - w) = ∑ y ∈ T, (if ∑ z ∈ Z, m z y = 0 then 0 else 1 / 2 - w) :=
    Finset.sum_congr rfl (fun y hy => by simp only [hsup y hy])
  by_cases hM : ∑ y ∈ T, m z y = 0
  · rw [if_pos hM, if_pos (e1.1 hM)]
  · rw [if_neg hM, if_neg (fun h => hM (e1.2 h)), e2]

/-- Two situations of the split occur. -/
def SplitVaries (Z : Finset Nat) (t : Nat → ℝ) : Prop := ∃ z ∈ Z, ∃ z' ∈ Z, z ≠ z' ∧ 0 < t z ∧ 0 < t z'

theorem price_gain_nonneg {α w : ℝ} (hα : 0 < α) (hw : 0 < w) (hwα : α = w * T.card) (h : SplitOK Z T m t) (hd : ¬ SplitDiffers Z T m t) :
    0 ≤ ∑ z ∈ Z, cellPrice α w T (m z) (t z) - cellPrice α w T (fun y => ∑ z ∈ Z, m z y) (∑ z ∈ Z, t z) ∧
    (SplitVaries Z t → 0 < ∑ z ∈ Z, cellPrice α w T (m z) (t z) - cellPrice α w T (fun y => ∑ z ∈ Z, m z y) (∑ z ∈ Z, t z)) := by
  have key : ∀ z ∈ Z, 0 < t z → cellPrice α w T (fun y => ∑ z ∈ Z, m z y) (∑ z ∈ Z, t z) ≤ ∑ z ∈ Z, cellPrice α w T (m z) (t z) := by
    intro z hz hp
    rw [← price_same h hd hz hp]
    exact Finset.single_le_sum (f := fun z => cellPrice α w T (m z) (t z)) (fun _ _ => price_nonneg hα hw hwα) hz
  constructor
  · by_cases hv : ∃ z ∈ Z, 0 < t z
    · obtain ⟨z, hz, hp⟩ := hv
      linarith [key z hz hp]
    · push Not at hv
      have h0 : ∀ z ∈ Z, t z = 0 := fun z hz => le_antisymm (hv z hz) (h.nonneg z hz)
      have e1 : ∑ z ∈ Z, t z = 0 := Finset.sum_eq_zero h0
      rw [e1]
      have : cellPrice α w T (fun y => ∑ z ∈ Z, m z y) 0 = 0 := by simp [cellPrice]
      rw [this, sub_zero]
      exact Finset.sum_nonneg (fun _ _ => price_nonneg hα hw hwα)
  · rintro ⟨z, hz, z', hz', hne, hp, hp'⟩
    have h2 : cellPrice α w T (m z) (t z) + cellPrice α w T (m z') (t z') ≤ ∑ z ∈ Z, cellPrice α w T (m z) (t z) := by
      rw [← Finset.sum_pair (f := fun z => cellPrice α w T (m z) (t z)) hne]
      refine Finset.sum_le_sum_of_subset_of_nonneg (fun a ha => ?_) (fun _ _ _ => price_nonneg hα hw hwα)
      rcases Finset.mem_insert.1 ha with rfl | ha
      · exact hz
      · rw [Finset.mem_singleton.1 ha]; exact hz'
    have h3 := price_pos (T := T) hα hw hwα (m := m z') hp'.ne'
    rw [← price_same h hd hz hp]
    linarith

theorem cellMarginal_unseen {τ α w : ℝ} (hτ : 0 < τ) (hα : 0 < α) (hw : 0 < w) {m : Nat → Nat} (h0 : ∀ y ∈ T, m y = 0) : cellMarginal τ α w T m 0 = 1 := by
  obtain ⟨h1, h2⟩ := log_cellMarginal hτ hα hw T m le_rfl
  have hs : ∑ y ∈ T, m y = 0 := Finset.sum_eq_zero h0
  rw [hs, Finset.sum_eq_zero (fun y hy => by simp [h0 y hy, rising])] at h2
  simp only [Nat.cast_zero, add_zero, div_self hα.ne', Real.log_one, zero_add, sub_self] at h2
  rcases Real.log_eq_zero.1 h2 with h | h | h
  · linarith
  · exact h
  · linarith

/-- If at most one situation occurs, splitting changes nothing. -/
theorem split_trivial {τ α w : ℝ} (hτ : 0 < τ) (hα : 0 < α) (hw : 0 < w) (h : SplitOK Z T m t) (hv : ¬ SplitVaries Z t) :
    ∏ z ∈ Z, cellMarginal τ α w T (m z) (t z) = cellMarginal τ α w T (fun y => ∑ z ∈ Z, m z y) (∑ z ∈ Z, t z) := by
  by_cases he : ∃ z ∈ Z, 0 < t z
  · obtain ⟨z, hz, hp⟩ := he
    have h0 : ∀ z' ∈ Z, z' ≠ z → t z' = 0 := by
      intro z' hz' hne
      by_contra hcon
      exact hv ⟨z, hz, z', hz', hne.symm, hp, lt_of_le_of_ne (h.nonneg z' hz') (Ne.symm hcon)⟩
    rw [Finset.prod_eq_single_of_mem z hz (fun z' hz' hne => by
        rw [h0 z' hz' hne]; exact cellMarginal_unseen hτ hα hw (h.zero z' hz' (h0 z' hz' hne))),
      Finset.sum_eq_single_of_mem z hz (fun z' hz' hne => h0 z' hz' hne)]
    have e : ∀ y ∈ T, ∑ z ∈ Z, m z y = m z y := fun y hy =>
      Finset.sum_eq_single_of_mem z hz (fun z' hz' hne => h.zero z' hz' (h0 z' hz' hne) y hy)
    have e2 : ∑ y ∈ T, ∑ z ∈ Z, m z y = ∑ y ∈ T, m z y := Finset.sum_congr rfl e
    unfold cellMarginal targetMarginal
    have e3 : ∏ y ∈ T, rising w (∑ z ∈ Z, m z y) = ∏ y ∈ T, rising w (m z y) := Finset.prod_congr rfl (fun y hy => by rw [e y hy])
    rw [e2, e3]
  · push Not at he
    have h0 : ∀ z ∈ Z, t z = 0 := fun z hz => le_antisymm (he z hz) (h.nonneg z hz)
    rw [Finset.sum_eq_zero h0, cellMarginal_unseen hτ hα hw (fun y hy => Finset.sum_eq_zero (fun z hz => h.zero z hz (h0 z hz) y hy))]
    exact Finset.prod_eq_one (fun z hz => by rw [h0 z hz]; exact cellMarginal_unseen hτ hα hw (h.zero z hz (h0 z hz)))

end

end PyCTBN
