import Verif.Lemmas.FDist
import Verif.Props.CtpcSens
import Verif.Props.SampleCtpc

/-!
# C219, C220: with the quantiles of the F and chi-square distributions

The theorems about constraint-based estimation leave the two quantile functions open and state what they need of them
(`SaneQuantiles`, `MonotoneQuantiles`, `QuantilesTighten`).  The quantiles of the actual distributions have these properties.
-/
namespace PyCTBN
open MeasureTheory ProbabilityTheory Spec Indep Filter Topology

theorem ppf_mid {valid : Prop} (hv : valid) (μ : Measure ℝ) {q : ℝ} (h0 : 0 < q) (h1 : q < 1) : ppf valid μ q = .fin (quantile μ q) := by
  unfold ppf
  rw [if_neg, if_neg h0.ne', if_neg h1.ne]
  rintro (h | h | h)
  · exact h hv
  · linarith
  · linarith

theorem ppf_invalid {valid : Prop} (hv : ¬ valid) (μ : Measure ℝ) (q : ℝ) : ppf valid μ q = .nan := by
  unfold ppf
  rw [if_pos (.inl hv)]

theorem ppf_zero {valid : Prop} (hv : valid) (μ : Measure ℝ) : ppf valid μ 0 = .fin 0 := by
  unfold ppf
  rw [if_neg (by simp [hv]), if_pos rfl]

theorem ppf_one {valid : Prop} (hv : valid) (μ : Measure ℝ) : ppf valid μ 1 = .pinf := by
  unfold ppf
  rw [if_neg (by simp [hv]), if_neg one_ne_zero, if_pos rfl]

theorem notLarger_refl (a : XR) : NotLarger a a := fun _ => ⟨id, id⟩

theorem notLarger_fin {a b : ℝ} (h : a ≤ b) : NotLarger (.fin a) (.fin b) := by
  intro z
  cases z with
  | nan => exact ⟨fun h => h, fun h => h⟩
  | ninf => exact ⟨fun h => h, fun h => h⟩
  | pinf => exact ⟨fun h => h, fun h => h⟩
  | fin w => exact ⟨fun k => lt_of_lt_of_le k h, fun k => lt_of_le_of_lt h k⟩

theorem notLarger_pinf (a : ℝ) : NotLarger (.fin a) .pinf := by
  intro z
  cases z with
  | nan => exact ⟨fun h => h, fun h => h⟩
  | ninf => exact ⟨fun _ => trivial, fun h => h.elim⟩
  | pinf => exact ⟨fun h => h, fun h => h.elim⟩
  | fin w => exact ⟨fun _ => trivial, fun h => h.elim⟩

theorem ppf_monotone {valid : Prop} {μ : Measure ℝ} (hμ : valid → IsProbabilityMeasure μ ∧ μ (Set.Iic 0) = 0) {q q' : ℝ} (h0 : 0 ≤ q)
    (hq : q ≤ q') (h1 : q' ≤ 1) : NotLarger (ppf valid μ q) (ppf valid μ q') := by
  by_cases hv : valid
  · obtain ⟨hp, hz⟩ := hμ hv
    rcases hq.eq_or_lt with rfl | hlt
    · exact notLarger_refl _
    rcases h0.eq_or_lt with rfl | h0
    · rw [ppf_zero hv]
      rcases h1.eq_or_lt with rfl | h1
      · rw [ppf_one hv]; exact notLarger_pinf 0
      · rw [ppf_mid hv μ hlt h1]; exact notLarger_fin (quantile_nonneg hz hlt h1)
    · rw [ppf_mid hv μ h0 (hlt.trans_le h1)]
      rcases h1.eq_or_lt with rfl | h1
      · rw [ppf_one hv]; exact notLarger_pinf _
      · rw [ppf_mid hv μ (h0.trans hlt) h1]; exact notLarger_fin (quantile_mono h0 hq h1)
  · rw [ppf_invalid hv, ppf_invalid hv]; exact notLarger_refl _

section
variable {α β thr : ℝ}

/-- C219.  Quantiles grow with the level. -/
theorem scipy_monotone : MonotoneQuantiles (scipyParams α β thr) where
  f q q' r1 r2 h0 hq h1 := ppf_monotone (fun hv => ⟨fDist_prob hv.1 hv.2, fDist_Iic_zero hv.1 hv.2⟩) h0 hq h1
  chi q q' d h0 hq h1 := ppf_monotone (fun hv => ⟨chiSquareDist_prob hv, chiSquareDist_Iic_zero d⟩) h0 hq h1

/-- C219.  No quantiles without degrees of freedom; 1 lies between the two quantiles of an F distribution with equal degrees of
freedom; chi-square quantiles are not negative. -/
theorem scipy_sane (hα : 0 ≤ α) (hα1 : α < 1) : SaneQuantiles (scipyParams α β thr) where
  zero_dof q r1 r2 h := ppf_invalid (by rintro ⟨h1, h2⟩; rcases h with h | h <;> linarith) _ _
  around_one r := by
    show ¬ (XR.fin 1).lt (ppf (0 < (r : ℝ) ∧ 0 < (r : ℝ)) (fDist r r) (α / 2)) ∧
      ¬ (ppf (0 < (r : ℝ) ∧ 0 < (r : ℝ)) (fDist r r) (1 - α / 2)).lt (.fin 1)
    by_cases hr : 0 < (r : ℝ)
    · have hp := fDist_prob hr hr
      obtain ⟨hm1, hm2⟩ := fDist_median hr
      rcases hα.eq_or_lt with rfl | hα
      · rw [zero_div, sub_zero, ppf_zero ⟨hr, hr⟩, ppf_one ⟨hr, hr⟩]
        exact ⟨not_lt.2 zero_le_one, fun h => h⟩
      · rw [ppf_mid ⟨hr, hr⟩ _ (by linarith) (by linarith), ppf_mid ⟨hr, hr⟩ _ (by linarith) (by linarith)]
        refine ⟨not_lt.2 (quantile_le (by linarith) (by linarith)), not_lt.2 (le_quantile (by linarith) (fun y hy => ?_))⟩
        linarith [hm2 y hy]
    · rw [ppf_invalid (fun h => hr h.1), ppf_invalid (fun h => hr h.1)]
      exact ⟨fun h => h, fun h => h⟩
  chi_nonneg d := by
    show ¬ (ppf (0 < d) (chiSquareDist d) (1 - β)).lt (.fin 0)
    by_cases hd : 0 < d
    · have hp := chiSquareDist_prob hd
      by_cases h0 : 0 ≤ 1 - β
      · by_cases h1 : 1 - β ≤ 1
        · rcases h0.eq_or_lt with h0 | h0
          · rw [← h0, ppf_zero hd]; exact lt_irrefl _
          · rcases h1.eq_or_lt with h1 | h1
            · rw [h1, ppf_one hd]; exact fun h => h
            · rw [ppf_mid hd _ h0 h1]
              exact not_lt.2 (quantile_nonneg (chiSquareDist_Iic_zero d) h0 h1)
        · unfold ppf
          rw [if_pos (.inr (.inr (not_le.1 h1)))]; exact fun h => h
      · unfold ppf
        rw [if_pos (.inr (.inl (not_le.1 h0)))]; exact fun h => h
    · rw [ppf_invalid hd]; exact fun h => h

/-- C219.  The F quantiles tend to 1 as both degrees of freedom grow; the chi-square quantile is a number. -/
theorem scipy_tighten (hα : 0 < α) (hα1 : α < 1) (hβ : 0 < β) (hβ1 : β ≤ 1) {c : Nat} (hc : 2 ≤ c) : QuantilesTighten (scipyParams α β thr) c where
  f ε hε := by
    obtain ⟨N1, k1⟩ := quantile_fDist_near (q := α / 2) (by linarith) (by linarith) hε
    obtain ⟨N2, k2⟩ := quantile_fDist_near (q := 1 - α / 2) (by linarith) (by linarith) hε
    refine ⟨max (max N1 N2) 1, fun r1 r2 h1 h2 => ?_⟩
    have a1 : N1 ≤ r1 ∧ N2 ≤ r1 ∧ 1 ≤ r1 := by omega
    have a2 : N1 ≤ r2 ∧ N2 ≤ r2 ∧ 1 ≤ r2 := by omega
    have p1 : (0 : ℝ) < r1 := by exact_mod_cast a1.2.2
    have p2 : (0 : ℝ) < r2 := by exact_mod_cast a2.2.2
    refine ⟨quantile (fDist r1 r2) (α / 2), quantile (fDist r1 r2) (1 - α / 2), ppf_mid (q := α / 2) ⟨p1, p2⟩ _ (by linarith) (by linarith),
      ppf_mid (q := 1 - α / 2) ⟨p1, p2⟩ _ (by linarith) (by linarith), ?_, ?_⟩
    · exact k1 _ _ (by exact_mod_cast a1.1) (by exact_mod_cast a2.1) p1 p2
    · exact k2 _ _ (by exact_mod_cast a1.2.1) (by exact_mod_cast a2.2.1) p1 p2
  chi := by
    have hd : (0 : ℝ) < (c : ℝ) - 1 := by
      have : (2 : ℝ) ≤ c := by exact_mod_cast hc
      linarith
    show ∃ z, ppf (0 < (c : ℝ) - 1) (chiSquareDist ((c : ℝ) - 1)) (1 - β) = .fin z
    rcases hβ1.eq_or_lt with rfl | hβ1
    · rw [sub_self, ppf_zero hd]; exact ⟨0, rfl⟩
    · exact ⟨_, ppf_mid hd _ (by linarith) (by linarith)⟩

/-! ## An explicit amount of data -/

/-- C220.  Significance level `alpha`: a ratio of the two estimated exit rates that differs from 1 by at least `ε` is rejected as soon as
both samples have more than `512 / (alpha ε²)` exits. -/
theorem rate_difference_rejected (hα : 0 < α) (hα1 : α < 1) {ε : ℝ} (hε : 0 < ε) (hε1 : ε ≤ 4) {m1 m2 : Nat → Nat → Nat}
    {q1 q2 : Nat → Nat → ℚ} {x : Nat} (h0 : q1 x x ≠ 0) (hdiff : ε < |(q2 x x : ℝ) / (q1 x x : ℝ) - 1|)
    (h1 : 512 / (α * ε ^ 2) < m1 x x) (h2 : 512 / (α * ε ^ 2) < m2 x x) : FOutside (scipyParams α β thr) m1 m2 q1 q2 x := by
  have hpos : 0 < 512 / (α * ε ^ 2) := by positivity
  have p1 : (0 : ℝ) < m1 x x := hpos.trans h1
  have p2 : (0 : ℝ) < m2 x x := hpos.trans h2
  have hq0 : (q1 x x : ℝ) ≠ 0 := by exact_mod_cast h0
  have hb : ∀ q, q = α / 2 ∨ q = 1 - α / 2 → |quantile (fDist (m1 x x) (m2 x x)) q - 1| ≤ ε / 2 := by
    intro q hq
    have hmin : min q (1 - q) = α / 2 := by
      rcases hq with rfl | rfl
      · exact min_eq_left (by linarith)
      · rw [min_eq_right (by linarith)]; ring
    have hl : 4 / (min q (1 - q) * (ε / 8) ^ 2) = 512 / (α * ε ^ 2) := by
      rw [hmin]; field_simp; norm_num
    have := quantile_fDist_close (q := q) (δ := ε / 8) (by rcases hq with rfl | rfl <;> linarith) (by rcases hq with rfl | rfl <;> linarith)
      (by positivity) (by linarith) p1 p2 (by rw [hl]; exact h1) (by rw [hl]; exact h2)
    linarith
  have hlo := abs_le.1 (hb _ (.inl rfl))
  have hhi := abs_le.1 (hb _ (.inr rfl))
  have eF : XR.div (q2 x x : ℝ) (q1 x x : ℝ) = .fin ((q2 x x : ℝ) / (q1 x x : ℝ)) := by
    unfold XR.div; rw [if_neg hq0]
  have e1 : (scipyParams α β thr).fPpf ((scipyParams α β thr).expTestSign / 2) (m1 x x) (m2 x x) =
      .fin (quantile (fDist (m1 x x) (m2 x x)) (α / 2)) := ppf_mid (q := α / 2) ⟨p1, p2⟩ _ (by linarith) (by linarith)
  have e2 : (scipyParams α β thr).fPpf (1 - (scipyParams α β thr).expTestSign / 2) (m1 x x) (m2 x x) =
      .fin (quantile (fDist (m1 x x) (m2 x x)) (1 - α / 2)) := ppf_mid (q := 1 - α / 2) ⟨p1, p2⟩ _ (by linarith) (by linarith)
  unfold FOutside
  rw [eF, e1, e2]
  rcases lt_abs.1 hdiff with h | h
  · exact .inr (show _ < _ by linarith)
  · exact .inl (show _ < _ by linarith)

/-- C220.  Significance level `beta`: a chi-square statistic above `(c - 1) + √(2 (c - 1) / beta)` is rejected. -/
theorem chi_statistic_rejected (hβ : 0 < β) (hβ1 : β < 1) {c : Nat} (hc : 2 ≤ c) {m1 m2 : Nat → Nat → Nat} {x : Nat}
    (hd : ChiDefined c m1 m2 x) (h : ((c : ℝ) - 1) + Real.sqrt (2 * ((c : ℝ) - 1) / β) < chiSquare c m1 m2 x) :
    ChiExceeds (scipyParams α β thr) c m1 m2 x := by
  have hd0 : (0 : ℝ) < (c : ℝ) - 1 := by
    have : (2 : ℝ) ≤ c := by exact_mod_cast hc
    linarith
  refine ⟨hd, ?_⟩
  have e : (scipyParams α β thr).chi2Ppf (1 - (scipyParams α β thr).chiTestAlfa) ((c : ℝ) - 1) =
      .fin (quantile (chiSquareDist ((c : ℝ) - 1)) (1 - β)) := ppf_mid (q := 1 - β) hd0 _ (by linarith) (by linarith)
  rw [e]
  exact lt_of_le_of_lt (quantile_chiSquareDist_le hd0 hβ hβ1) h

/-- C220.  So `independence_test` does not answer "independent". -/
theorem difference_detected (hα : 0 < α) (hα1 : α < 1) (hβ : 0 < β) (hβ1 : β < 1) {c : Nat} {t1 t2 : Nat → ℚ} {m1 m2 : Nat → Nat → Nat}
    {q1 q2 : Nat → Nat → ℚ} (e1 : ExitCounts c m1) (e2 : ExitCounts c m2) (thumb : Nat) {x : Nat} (hx : x < c)
    (h : (∃ ε, 0 < ε ∧ ε ≤ 4 ∧ q1 x x ≠ 0 ∧ ε < |(q2 x x : ℝ) / (q1 x x : ℝ) - 1| ∧
        512 / (α * ε ^ 2) < m1 x x ∧ 512 / (α * ε ^ 2) < m2 x x) ∨
      (2 ≤ c ∧ ChiDefined c m1 m2 x ∧ ((c : ℝ) - 1) + Real.sqrt (2 * ((c : ℝ) - 1) / β) < chiSquare c m1 m2 x)) :
    independenceTest (scipyParams α β thr) c (cimOf c t1 m1 q1) (cimOf c t2 m2 q2) thumb ≠ .ok .accept := by
  obtain ⟨v, hv, -, h2, -⟩ := two_cim_test_exact (scipyParams α β thr) (t1 := t1) (t2 := t2) (q1 := q1) (q2 := q2) e1 e2 thumb
  rw [hv]
  intro hacc
  cases hacc
  obtain ⟨-, g1, g2⟩ := h2.1 rfl
  rcases h with ⟨ε, k1, k2, k3, k4, k5, k6⟩ | ⟨k1, k2, k3⟩
  · exact g1 x hx (rate_difference_rejected hα hα1 k1 k2 k3 k4 k5 k6)
  · exact g2 x hx (chi_statistic_rejected hβ hβ1 k1 k2 k3)

end
end PyCTBN
