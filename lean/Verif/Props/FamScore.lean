import Verif.Lemmas.FamScore

/-!
# The FamScore (C42–C45)
-/

namespace PyCTBN
open Spec FamScore MeasureTheory

/-- The CIM objects for a list of statistics (with arbitrary intensity matrices, which the score ignores). -/
def Spec.cimsFor (c : Nat) (l : List (Stats × List (List ℚ))) : List Cim := l.map (fun p => p.1.toCim c p.2)

/-! ## C42 -/

/-- C42: `exp` of the FamScore is the marginal likelihood: over all parent assignments and states, the Gamma-averaged
likelihood of the exits times the Dirichlet-averaged likelihood of the targets. -/
theorem famscore_is_log_marginal {τ α : ℝ} (hτ : 0 < τ) (hα : 0 < α) {c : Nat} (hc : 2 ≤ c)
    {l : List (Stats × List (List ℚ))} (hl : l ≠ []) (hs : ∀ p ∈ l, p.1.Proper c) :
    ∃ v, getFamScore (cimsFor c l) τ α = .ok v ∧ Real.exp v = (l.map (fun p => p.1.marginal τ α c)).prod := by
  refine ⟨_, getFamScore_closed hτ (by omega) hl (fun p hp => (hs p hp).nonneg), ?_⟩
  clear hl
  induction l with
  | nil => simp
  | cons p l ih =>
    rw [List.map_cons, List.sum_cons, Real.exp_add, exp_famTerm hτ hα hc (hs p (by simp)), ih (fun q hq => hs q (by simp [hq])),
      List.map_cons, List.prod_cons]

theorem urn_step {α w : ℝ} (hα : 0 < α) (hw : 0 < w) (T : Finset Nat) (seq past : List Nat) (hseq : ∀ y ∈ seq, y ∈ T) :
    urnProb α w past seq * (∏ y ∈ T, rising w (past.count y)) * rising α (past.length + seq.length) =
      (∏ y ∈ T, rising w (past.count y + seq.count y)) * rising α past.length := by
  induction seq generalizing past with
  | nil => simp [urnProb]
  | cons y ys ih =>
    have hy := hseq y (by simp)
    have ih := ih (y :: past) (fun z hz => hseq z (by simp [hz]))
    rw [List.length_cons, show past.length + 1 + ys.length = past.length + (ys.length + 1) by omega] at ih
    rw [urnProb, List.length_cons]
    have hp : ∏ z ∈ T, rising w ((y :: past).count z) = (w + past.count y) * ∏ z ∈ T, rising w (past.count z) := by
      rw [← Finset.mul_prod_erase T _ hy, ← Finset.mul_prod_erase T (fun z => rising w (past.count z)) hy]
      have h1 : (y :: past).count y = past.count y + 1 := by simp
      have h2 : ∏ z ∈ T.erase y, rising w ((y :: past).count z) = ∏ z ∈ T.erase y, rising w (past.count z) := by
        apply Finset.prod_congr rfl
        intro z hz
        have : y ≠ z := fun e => (Finset.mem_erase.1 hz).1 e.symm
        rw [List.count_cons]; simp [this]
      rw [h1, h2]
      conv_lhs => rw [rising, Finset.prod_range_succ, ← rising]
      ring
    have hq : ∏ z ∈ T, rising w ((y :: past).count z + ys.count z) = ∏ z ∈ T, rising w (past.count z + (y :: ys).count z) := by
      apply Finset.prod_congr rfl
      intro z _
      rw [List.count_cons, List.count_cons]; congr 1; omega
    have hr : rising α (past.length + 1) = rising α past.length * (α + past.length) := by
      rw [rising, Finset.prod_range_succ, ← rising]
    rw [hp, hq, hr] at ih
    have ha : (0 : ℝ) < α + past.length := by positivity
    have e : (w + (past.count y : ℝ)) / (α + past.length) * urnProb α w (y :: past) ys * (∏ z ∈ T, rising w (past.count z)) *
        rising α (past.length + (ys.length + 1)) * (α + past.length)
        = (∏ z ∈ T, rising w (past.count z + (y :: ys).count z)) * rising α past.length * (α + past.length) := by
      have : (w + (past.count y : ℝ)) / (α + past.length) * urnProb α w (y :: past) ys * (∏ z ∈ T, rising w (past.count z)) *
        rising α (past.length + (ys.length + 1)) * (α + past.length) = urnProb α w (y :: past) ys *
        ((w + past.count y) * ∏ z ∈ T, rising w (past.count z)) * rising α (past.length + (ys.length + 1)) := by
          field_simp
      rw [this, ih]; ring
    exact mul_right_cancel₀ ha.ne' e

/-- C42, reading of the target factor: for *every* sequence of targets with the given counts it is the probability of that
sequence by sequential prediction. -/
theorem target_marginal_is_prediction {α w : ℝ} (hα : 0 < α) (hw : 0 < w) (T : Finset Nat) (m : Nat → Nat) (seq : List Nat)
    (hT : ∀ y ∈ seq, y ∈ T) (hm : ∀ y ∈ T, seq.count y = m y) : urnProb α w [] seq = targetMarginal α w T m := by
  have h := urn_step hα hw T seq [] hT
  have h1 : ∏ y ∈ T, rising w (([] : List Nat).count y) = 1 := by simp [rising]
  have h2 : ∏ y ∈ T, rising w (([] : List Nat).count y + seq.count y) = ∏ y ∈ T, rising w (m y) :=
    Finset.prod_congr rfl (fun y hy => by rw [hm y hy]; simp)
  have h3 : ∑ y ∈ T, m y = seq.length := by
    have := Multiset.sum_count_eq_card (s := T) (m := (seq : Multiset Nat)) (by simpa using hT)
    rw [← Finset.sum_congr rfl hm]
    simpa using this
  rw [h1, h2] at h
  have h4 : rising α 0 = 1 := by simp [rising]
  simp only [List.length_nil, zero_add, h4, mul_one] at h
  unfold targetMarginal
  rw [h3, ← h]
  have := rising_pos hα seq.length
  field_simp

/-- C42, reading of the exit factor: a closed form showing that the integral is a genuine (positive) number. -/
theorem exit_marginal_pos {τ α : ℝ} (hτ : 0 < τ) (hα : 0 < α) (m : Nat) {t : ℝ} (ht : 0 ≤ t) : 0 < exitMarginal τ α m t := by
  rw [exitMarginal_closed hτ hα ht]
  have : (0 : ℝ) < τ + t := by positivity
  have g1 : 0 < Real.Gamma (α + 1) := Real.Gamma_pos_of_pos (by positivity)
  have g2 : 0 < Real.Gamma (α + m + 1) := Real.Gamma_pos_of_pos (by positivity)
  positivity

/-- Proper statistics exist: three states, one exit to each side. -/
example : (⟨fun _ => 1 / 2, fun x y => if x = y then 2 else 1⟩ : Stats).Proper 3 :=
  ⟨fun _ _ => by norm_num, fun x hx => by
    have : x = 0 ∨ x = 1 ∨ x = 2 := by omega
    rcases this with rfl | rfl | rfl <;> decide⟩

/-! ## C43 -/

/-- No data for a parent assignment. -/
def Spec.Stats.Empty (c : Nat) (s : Stats) : Prop :=
  (∀ x, x < c → s.time x = 0) ∧ ∀ x y, x < c → y < c → s.count x y = 0

/-- C43: an assignment without data can be added or deleted anywhere without moving the score. -/
theorem famscore_ignores_unobserved {τ : ℝ} (hτ : 0 < τ) (α : ℝ) {c : Nat} (hc : c ≠ 1)
    (l₁ l₂ : List (Stats × List (List ℚ))) (p : Stats × List (List ℚ)) (hp : p.1.Empty c) (hl : l₁ ++ l₂ ≠ [])
    (hs : ∀ q ∈ l₁ ++ l₂, ∀ x, x < c → 0 ≤ q.1.time x) :
    getFamScore (cimsFor c (l₁ ++ p :: l₂)) τ α = getFamScore (cimsFor c (l₁ ++ l₂)) τ α := by
  unfold cimsFor
  rw [getFamScore_closed hτ hc (by simp) (fun q hq => ?_), getFamScore_closed hτ hc hl hs]
  · congr 1
    simp [famTerm_zero τ α c hp.1 hp.2]
  · simp only [List.mem_append, List.mem_cons] at hq
    rcases hq with h | rfl | h
    · exact hs q (by simp [h])
    · intro x hx; rw [hp.1 x hx]
    · exact hs q (by simp [h])

/-- C43: without any data the score is 0. -/
theorem famscore_no_data {τ : ℝ} (hτ : 0 < τ) (α : ℝ) {c : Nat} (hc : c ≠ 1) {l : List (Stats × List (List ℚ))} (hl : l ≠ [])
    (hs : ∀ q ∈ l, q.1.Empty c) : getFamScore (cimsFor c l) τ α = .ok 0 := by
  unfold cimsFor
  rw [getFamScore_closed hτ hc hl (fun q hq x hx => by rw [(hs q hq).1 x hx])]
  congr 1
  apply List.sum_eq_zero
  intro v hv
  obtain ⟨q, hq, rfl⟩ := List.mem_map.1 hv
  exact famTerm_zero τ α c (hs q hq).1 (hs q hq).2

/-! ## C44 -/

/-- C44: the order of the parent assignments does not matter. -/
theorem famscore_perm {τ : ℝ} (hτ : 0 < τ) (α : ℝ) {c : Nat} (hc : c ≠ 1) {l l' : List (Stats × List (List ℚ))}
    (h : l.Perm l') (hs : ∀ q ∈ l, ∀ x, x < c → 0 ≤ q.1.time x) :
    getFamScore (cimsFor c l) τ α = getFamScore (cimsFor c l') τ α := by
  by_cases hl : l = []
  · subst hl; rw [List.nil_perm.1 h]
  · have hl' : l' ≠ [] := fun e => hl (by subst e; exact List.perm_nil.1 h)
    unfold cimsFor
    rw [getFamScore_closed hτ hc hl hs, getFamScore_closed hτ hc hl' (fun q hq => hs q (h.mem_iff.2 hq))]
    congr 1
    exact (h.map _).sum_eq

/-- C44: scores of disjoint lists of assignments add up. -/
theorem famscore_additive {τ : ℝ} (hτ : 0 < τ) (α : ℝ) {c : Nat} (hc : c ≠ 1) {l l' : List (Stats × List (List ℚ))}
    (hl : l ≠ []) (hl' : l' ≠ []) (hs : ∀ q ∈ l, ∀ x, x < c → 0 ≤ q.1.time x) (hs' : ∀ q ∈ l', ∀ x, x < c → 0 ≤ q.1.time x) :
    ∃ v v', getFamScore (cimsFor c l) τ α = .ok v ∧ getFamScore (cimsFor c l') τ α = .ok v' ∧
      getFamScore (cimsFor c (l ++ l')) τ α = .ok (v + v') := by
  unfold cimsFor
  refine ⟨_, _, getFamScore_closed hτ hc hl hs, getFamScore_closed hτ hc hl' hs', ?_⟩
  rw [getFamScore_closed hτ hc (by simp [hl]) (fun q hq => by
    rcases List.mem_append.1 hq with h | h
    · exact hs q h
    · exact hs' q h), List.map_append, List.sum_append]

/-! ## C45 -/

/-- C45: exactly the degenerate inputs raise, with these exceptions. -/
theorem famscore_raises_iff {τ : ℝ} (hτ : 0 < τ) (α : ℝ) (c : Nat) (l : List (Stats × List (List ℚ)))
    (hs : ∀ q ∈ l, ∀ x, x < c → 0 ≤ q.1.time x) :
    (getFamScore (cimsFor c l) τ α = .error .indexError ↔ l = []) ∧
    (getFamScore (cimsFor c l) τ α = .error .zeroDivisionError ↔ l ≠ [] ∧ c = 1) ∧
    ((∃ v, getFamScore (cimsFor c l) τ α = .ok v) ↔ l ≠ [] ∧ c ≠ 1) := by
  by_cases hl : l = []
  · subst hl
    have : getFamScore (cimsFor c []) τ α = .error .indexError := rfl
    rw [this]; simp
  · by_cases hc : c = 1
    · subst hc
      obtain ⟨p, l', rfl⟩ := List.exists_cons_of_ne_nil hl
      have : getFamScore (cimsFor 1 (p :: l')) τ α = .error .zeroDivisionError := by
        unfold getFamScore cimsFor
        have h0 : pyGet ((p :: l').map (fun p : Stats × List (List ℚ) => p.1.toCim 1 p.2)) 0 = .ok (p.1.toCim 1 p.2) := by
          rw [pyGet_ok]; rfl
        have hlen : (p.1.toCim 1 p.2).resTimes.length = 1 := by simp [Stats.toCim]
        rw [h0]
        simp only [Except.bind_ok', hlen, if_true]
      rw [this]; simp
    · unfold cimsFor
      rw [getFamScore_closed hτ hc hl hs]; simp [hl, hc]

/-- A non-positive `tau_xu` is a `ValueError` as soon as a state is scored (so positivity of the hyper-parameter is needed). -/
theorem famscore_needs_positive_tau {τ : ℝ} (hτ : τ ≤ 0) (α : ℝ) {c : Nat} (hc : 2 ≤ c) {l : List (Stats × List (List ℚ))}
    (hl : l ≠ []) : getFamScore (cimsFor c l) τ α = .error .valueError := by
  obtain ⟨p, l', rfl⟩ := List.exists_cons_of_ne_nil hl
  have h0 : pyGet ((p :: l').map (fun p : Stats × List (List ℚ) => p.1.toCim c p.2)) 0 = .ok (p.1.toCim c p.2) := by
    rw [pyGet_ok]; rfl
  have hlen : (p.1.toCim c p.2).resTimes.length = c := by simp [Stats.toCim]
  have hq : variableQ (p.1.toCim c p.2) τ α = .error .valueError := by
    unfold variableQ
    obtain ⟨c', rfl⟩ : ∃ c', c = c' + 1 := ⟨c - 1, by omega⟩
    rw [hlen, List.range_succ_eq_map, List.mapM_cons, entry_toCim (by omega) (by omega)]
    simp only [Except.bind_ok', Stats.toCim, pyGet_range_map (show 0 < c' + 1 by omega)]
    unfold singleQ mathLog
    rw [if_neg (by linarith)]
    rfl
  unfold getFamScore cimsFor
  rw [h0]
  simp only [Except.bind_ok', hlen, if_neg (show c ≠ 1 by omega)]
  have : marginalQ ((p :: l').map (fun p : Stats × List (List ℚ) => p.1.toCim c p.2)) τ α = .error .valueError := by
    unfold marginalQ
    rw [List.map_cons, List.mapM_cons, hq]; rfl
  rw [this]; rfl

end PyCTBN
