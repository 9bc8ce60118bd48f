import Verif.Spec.FamScore
import Verif.Lemmas.Indep
import Verif.Lemmas.Direct
import Mathlib.Analysis.SpecialFunctions.Pow.Real
import Mathlib.Algebra.BigOperators.Ring.Finset
import Mathlib.Tactic.FieldSimp

namespace PyCTBN
open Spec FamScore MeasureTheory

theorem gamma_rising {a : ℝ} (ha : 0 < a) (n : Nat) : Real.Gamma (a + n) = Real.Gamma a * rising a n := by
  induction n with
  | zero => simp [rising]
  | succ n ih =>
    have : (0 : ℝ) < a + n := by positivity
    rw [rising, Finset.prod_range_succ, ← rising, ← mul_assoc, ← ih]
    push_cast
    rw [← add_assoc, Real.Gamma_add_one this.ne']
    ring

theorem rising_pos {a : ℝ} (ha : 0 < a) (n : Nat) : 0 < rising a n := Finset.prod_pos (fun k _ => by positivity)

/-- The exit term. -/
noncomputable def qTerm (τ α : ℝ) (m : Nat) (t : ℚ) : ℝ :=
  (loggamma (α + m + 1) + Real.log τ * (α + 1)) - (loggamma (α + 1) + Real.log (τ + (t : ℝ)) * (α + m + 1))

theorem singleQ_ok {τ α : ℝ} (hτ : 0 < τ) {m : Nat} {t : ℚ} (ht : 0 ≤ t) : singleQ m t τ α = .ok (qTerm τ α m t) := by
  have : (0 : ℝ) < τ + t := by have : (0 : ℝ) ≤ t := by exact_mod_cast ht
                               positivity
  unfold singleQ mathLog
  rw [if_pos hτ, if_pos this]
  rfl

theorem exitMarginal_closed {τ α t : ℝ} (hτ : 0 < τ) (hα : 0 < α) (ht : 0 ≤ t) (m : Nat) :
    exitMarginal τ α m t = τ ^ (α + 1) / Real.Gamma (α + 1) * ((1 / (τ + t)) ^ (α + m + 1) * Real.Gamma (α + m + 1)) := by
  unfold exitMarginal
  have h1 : (0 : ℝ) < α + m + 1 := by positivity
  have h2 : (0 : ℝ) < τ + t := by positivity
  rw [← Real.integral_rpow_mul_exp_neg_mul_Ioi h1 h2, ← integral_const_mul]
  apply setIntegral_congr_fun measurableSet_Ioi
  intro q hq
  have hq : 0 < q := hq
  simp only [gammaDensity, exitLikelihood]
  have e1 : q ^ (α + (m : ℝ) + 1 - 1) = q ^ (α + 1 - 1) * q ^ m := by
    rw [← Real.rpow_natCast q m, ← Real.rpow_add hq]; congr 1; ring
  have e2 : Real.exp (-((τ + t) * q)) = Real.exp (-(τ * q)) * Real.exp (-(q * t)) := by
    rw [← Real.exp_add]; congr 1; ring
  rw [e1, e2]
  ring

theorem exp_qTerm {τ α : ℝ} (hτ : 0 < τ) (hα : 0 < α) (m : Nat) {t : ℚ} (ht : 0 ≤ t) :
    Real.exp (qTerm τ α m t) = exitMarginal τ α m t := by
  have ht' : (0 : ℝ) ≤ t := by exact_mod_cast ht
  have h2 : (0 : ℝ) < τ + t := by positivity
  have g1 : 0 < Real.Gamma (α + 1) := Real.Gamma_pos_of_pos (by positivity)
  have g2 : 0 < Real.Gamma (α + m + 1) := Real.Gamma_pos_of_pos (by positivity)
  rw [exitMarginal_closed hτ hα ht']
  unfold qTerm loggamma
  rw [Real.exp_sub, Real.exp_add, Real.exp_add, Real.exp_log g1, Real.exp_log g2, ← Real.rpow_def_of_pos hτ,
    ← Real.rpow_def_of_pos h2, one_div, Real.inv_rpow h2.le]
  have := Real.rpow_pos_of_pos h2 (α + m + 1)
  field_simp

/-- The target term of one state. -/
noncomputable def thetaTerm (α w : ℝ) (T : Finset Nat) (mx : Nat) (m : Nat → Nat) : ℝ :=
  (loggamma α - loggamma (α + mx)) + ∑ y ∈ T, internalTheta (m y) w

theorem exp_thetaTerm {α w : ℝ} (hα : 0 < α) (hw : 0 < w) (T : Finset Nat) (m : Nat → Nat) :
    Real.exp (thetaTerm α w T (∑ y ∈ T, m y) m) = targetMarginal α w T m := by
  unfold thetaTerm targetMarginal
  rw [Real.exp_add, Real.exp_sum]
  have h1 : ∀ y, Real.exp (internalTheta (m y) w) = rising w (m y) := by
    intro y
    unfold internalTheta loggamma
    have g1 := Real.Gamma_pos_of_pos hw
    rw [Real.exp_sub, Real.exp_log g1, Real.exp_log (Real.Gamma_pos_of_pos (by positivity)), gamma_rising hw]
    field_simp
  rw [Finset.prod_congr rfl (fun y _ => h1 y)]
  unfold loggamma
  have g1 := Real.Gamma_pos_of_pos hα
  rw [Real.exp_sub, Real.exp_log g1, Real.exp_log (Real.Gamma_pos_of_pos (by positivity)), gamma_rising hα]
  have := rising_pos hα (∑ y ∈ T, m y)
  field_simp

theorem entry_toCim {c : Nat} {s : Stats} {q : List (List ℚ)} {x y : Nat} (hx : x < c) (hy : y < c) :
    entry (s.toCim c q) x y = .ok (s.count x y) := by
  unfold entry Stats.toCim
  simp only [pyGet_range_map hx, Except.bind_ok', pyGet_range_map hy]

theorem variableQ_toCim {τ : ℝ} (hτ : 0 < τ) (α : ℝ) {c : Nat} {s : Stats} (hs : ∀ x, x < c → 0 ≤ s.time x) (q : List (List ℚ)) :
    variableQ (s.toCim c q) τ α = .ok (∑ x ∈ Finset.range c, qTerm τ α (s.count x x) (s.time x)) := by
  unfold variableQ
  have hlen : (s.toCim c q).resTimes.length = c := by simp [Stats.toCim]
  rw [hlen, mapM_ok_map (g := fun x => qTerm τ α (s.count x x) (s.time x))]
  · show Except.ok _ = _
    congr 1
  · intro x hx
    have hx := List.mem_range.1 hx
    rw [entry_toCim hx hx]
    simp only [Except.bind_ok', Stats.toCim, pyGet_range_map hx]
    exact singleQ_ok hτ (hs x hx)

theorem range_erase (c x : Nat) : (List.range c).erase x = (List.range c).filter (fun y => decide (y ≠ x)) := by
  rw [(List.nodup_range (n := c)).erase_eq_filter]
  apply List.filter_congr; intro y _; rw [Bool.eq_iff_iff]; simp

theorem singleTheta_toCim (α w : ℝ) {c : Nat} {s : Stats} (q : List (List ℚ)) {x : Nat} (hx : x < c) :
    singleTheta x (s.toCim c q) α w = .ok (thetaTerm α w ((Finset.range c).erase x) (s.count x x) (s.count x)) := by
  unfold singleTheta
  have hlen : (s.toCim c q).resTimes.length = c := by simp [Stats.toCim]
  rw [hlen]
  unfold pyRemove
  rw [if_pos (List.mem_range.2 hx), entry_toCim hx hx]
  simp only [Except.bind_ok']
  rw [mapM_ok_map (g := fun y => internalTheta (s.count x y) w)]
  · show Except.ok _ = _
    unfold thetaTerm
    rw [range_erase, filter_sum_eq]
  · intro y hy
    rw [range_erase] at hy
    simp only [List.mem_filter, List.mem_range] at hy
    rw [entry_toCim hx hy.1]; rfl

theorem variableTheta_toCim (α w : ℝ) {c : Nat} {s : Stats} (q : List (List ℚ)) :
    variableTheta (s.toCim c q) α w =
      .ok (∑ x ∈ Finset.range c, thetaTerm α w ((Finset.range c).erase x) (s.count x x) (s.count x)) := by
  unfold variableTheta
  have hlen : (s.toCim c q).resTimes.length = c := by simp [Stats.toCim]
  rw [hlen, mapM_ok_map (g := fun x => thetaTerm α w ((Finset.range c).erase x) (s.count x x) (s.count x))]
  · show Except.ok _ = _
    congr 1
  · intro x hx
    exact singleTheta_toCim α w q (List.mem_range.1 hx)

/-- The contribution of one parent assignment. -/
noncomputable def famTerm (τ α : ℝ) (c : Nat) (s : Stats) : ℝ :=
  (∑ x ∈ Finset.range c, qTerm τ α (s.count x x) (s.time x)) +
    ∑ x ∈ Finset.range c, thetaTerm α (α / (c - 1)) ((Finset.range c).erase x) (s.count x x) (s.count x)

theorem getFamScore_closed {τ α : ℝ} (hτ : 0 < τ) {c : Nat} (hc : c ≠ 1) {l : List (Stats × List (List ℚ))} (hl : l ≠ [])
    (hs : ∀ p ∈ l, ∀ x, x < c → 0 ≤ p.1.time x) :
    getFamScore (l.map (fun p => p.1.toCim c p.2)) τ α = .ok (l.map (fun p => famTerm τ α c p.1)).sum := by
  obtain ⟨p0, l', rfl⟩ := List.exists_cons_of_ne_nil hl
  unfold getFamScore
  have h0 : pyGet ((p0 :: l').map (fun p : Stats × List (List ℚ) => p.1.toCim c p.2)) 0 = .ok (p0.1.toCim c p0.2) := by
    rw [pyGet_ok]; rfl
  have hlen : (p0.1.toCim c p0.2).resTimes.length = c := by simp [Stats.toCim]
  rw [h0]
  simp only [Except.bind_ok', hlen, if_neg hc]
  have h1 : marginalQ ((p0 :: l').map (fun p : Stats × List (List ℚ) => p.1.toCim c p.2)) τ α =
      .ok (((p0 :: l').map (fun p => ∑ x ∈ Finset.range c, qTerm τ α (p.1.count x x) (p.1.time x))).sum) := by
    unfold marginalQ
    rw [List.mapM_map, mapM_ok_map (g := fun p : Stats × List (List ℚ) => ∑ x ∈ Finset.range c, qTerm τ α (p.1.count x x) (p.1.time x))]
    · rfl
    · intro p hp; exact variableQ_toCim hτ α (hs p hp) p.2
  have h2 : marginalTheta ((p0 :: l').map (fun p : Stats × List (List ℚ) => p.1.toCim c p.2)) α (α / ((c : ℝ) - 1)) =
      .ok (((p0 :: l').map (fun p => ∑ x ∈ Finset.range c, thetaTerm α (α / (c - 1)) ((Finset.range c).erase x) (p.1.count x x)
        (p.1.count x))).sum) := by
    unfold marginalTheta
    rw [List.mapM_map, mapM_ok_map (g := fun p : Stats × List (List ℚ) => ∑ x ∈ Finset.range c, thetaTerm α (α / (c - 1))
      ((Finset.range c).erase x) (p.1.count x x) (p.1.count x))]
    · rfl
    · intro p hp; exact variableTheta_toCim α _ p.2
  rw [h1, h2]
  show Except.ok _ = _
  congr 1
  rw [← List.sum_map_add]
  rfl

theorem exp_famTerm {τ α : ℝ} (hτ : 0 < τ) (hα : 0 < α) {c : Nat} (hc : 2 ≤ c) {s : Stats} (hs : s.Proper c) :
    Real.exp (famTerm τ α c s) = s.marginal τ α c := by
  unfold famTerm Stats.marginal
  rw [Real.exp_add, Real.exp_sum, Real.exp_sum, ← Finset.prod_mul_distrib]
  apply Finset.prod_congr rfl
  intro x hx
  have hx := Finset.mem_range.1 hx
  have hc' : (0 : ℝ) < (c : ℝ) - 1 := by
    have : (2 : ℝ) ≤ c := by exact_mod_cast hc
    linarith
  rw [exp_qTerm hτ hα _ (hs.nonneg x hx)]
  congr 1
  conv_lhs => rw [hs.exits x hx]
  exact exp_thetaTerm hα (by positivity) _ _

theorem famTerm_zero (τ α : ℝ) (c : Nat) {s : Stats} (ht : ∀ x, x < c → s.time x = 0)
    (hm : ∀ x y, x < c → y < c → s.count x y = 0) : famTerm τ α c s = 0 := by
  unfold famTerm
  have h1 : ∑ x ∈ Finset.range c, qTerm τ α (s.count x x) (s.time x) = 0 := by
    apply Finset.sum_eq_zero
    intro x hx
    have hx := Finset.mem_range.1 hx
    rw [hm x x hx hx, ht x hx]
    simp [qTerm]
  have h2 : ∑ x ∈ Finset.range c, thetaTerm α (α / (c - 1)) ((Finset.range c).erase x) (s.count x x) (s.count x) = 0 := by
    apply Finset.sum_eq_zero
    intro x hx
    have hx := Finset.mem_range.1 hx
    unfold thetaTerm
    rw [hm x x hx hx, Finset.sum_eq_zero]
    · simp
    · intro y hy
      simp only [Finset.mem_erase, Finset.mem_range] at hy
      rw [hm x y hx hy.2]
      simp [internalTheta]
  rw [h1, h2, add_zero]

end PyCTBN
