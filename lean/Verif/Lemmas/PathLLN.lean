import Verif.Lemmas.PathErgodic
import Verif.Lemmas.RoundReal
import Verif.Lemmas.Assign
import Verif.Spec.LongRun

/-!
# The law of large numbers along the path of a jump process
-/

open MeasureTheory ProbabilityTheory Finset
open scoped ENNReal

namespace PyCTBN.JumpPaths
open Spec

noncomputable section

variable {N : Ctbn} {rate : Rates}

theorem mem_joint (hOK : N.OK) {vals : List Nat} : vals ∈ N.joint ↔ N.InRange vals := by
  unfold Ctbn.joint Ctbn.InRange
  rw [List.mem_toFinset, mem_assignments]
  unfold InRangeAssign
  rw [List.forall₂_iff_get]
  simp only [List.length_map, List.get_eq_getElem, List.getElem_map]
  refine and_congr_right (fun hl => ?_)
  constructor
  · intro h v hv
    have hi := List.idxOf_lt_length_of_mem hv
    have h1 := h (N.vars.idxOf v) (by omega) hi
    unfold Ctbn.state
    rw [List.getElem?_eq_getElem (by omega)]
    simpa using h1
  · intro h i h1 h2
    have h3 := h _ (List.getElem_mem h2)
    unfold Ctbn.state at h3
    rw [hOK.nodup.idxOf_getElem i h2, List.getElem?_eq_getElem h1] at h3
    exact h3

theorem flow_eq (a b : List Nat) : flow N rate a b = ∑ s ∈ steps N, if after a s = b then rate a (N.vars.getD s.1 "") s.2 else 0 := by
  unfold flow steps
  rw [Finset.sum_sigma]
  rfl

section
variable (hOK : N.OK) (hU : Usable N rate)
include hOK hU

/-- The mean after one step, weighted with the rate of the steps. -/
theorem rate_next (g : List Nat → ℝ) {a : List Nat} (ha : N.InRange a) :
    totalRate N rate a * next N rate g a = ∑ b ∈ N.joint, flow N rate a b * g b := by
  have hR := (hU.pos a ha).ne'
  unfold next
  simp only [flow_eq, Finset.sum_mul, Finset.mul_sum]
  rw [Finset.sum_comm]
  refine Finset.sum_congr rfl (fun s hs => ?_)
  rw [Finset.sum_eq_single (after a s)]
  · rw [if_pos rfl]
    unfold stepProb
    field_simp
  · intro b _ hb
    rw [if_neg (Ne.symm hb), zero_mul]
  · intro h
    exact absurd ((mem_joint hOK).2 (hU.closed a ha s hs)) h

/-- A stationary distribution does not see `g - next g`. -/
theorem stationary_null {π : List Nat → ℝ} (hπ : Stationary N rate π) (g : List Nat → ℝ) :
    ∑ a ∈ N.joint, π a * (totalRate N rate a * (g a - next N rate g a)) = 0 := by
  have e : ∀ a ∈ N.joint, π a * (totalRate N rate a * (g a - next N rate g a)) = π a * totalRate N rate a * g a - ∑ b ∈ N.joint, π a * flow N rate a b * g b := by
    intro a ha
    rw [mul_sub, rate_next hOK hU g ((mem_joint hOK).1 ha), mul_sub, Finset.mul_sum]
    simp only [mul_assoc]
  rw [Finset.sum_congr rfl e, Finset.sum_sub_distrib, Finset.sum_comm]
  simp only [← Finset.sum_mul]
  rw [sub_eq_zero]
  exact Finset.sum_congr rfl (fun b hb => by rw [hπ.balance b hb])

/-- The long-run average is the stationary mean. -/
theorem longRun_value {π : List Nat → ℝ} (hπ : Stationary N rate π) {f g : List Nat → ℝ} {c : ℝ} (h : ∀ vals, N.InRange vals → f vals = g vals - next N rate g vals + c) :
    c * pace N rate π = ∑ a ∈ N.joint, π a * (totalRate N rate a * f a) := by
  have e : ∀ a ∈ N.joint, π a * (totalRate N rate a * f a) = π a * (totalRate N rate a * (g a - next N rate g a)) + c * (π a * totalRate N rate a) := by
    intro a ha
    rw [h a ((mem_joint hOK).1 ha)]
    ring
  rw [Finset.sum_congr rfl e, Finset.sum_add_distrib, stationary_null hOK hU hπ, ← Finset.mul_sum, zero_add]
  rfl

theorem pace_pos {π : List Nat → ℝ} (hπ : Stationary N rate π) : 0 < pace N rate π := by
  obtain ⟨Rm, RM, hRm, hRR⟩ := rate_bounds hOK hU
  have : Rm * ∑ a ∈ N.joint, π a ≤ pace N rate π := by
    unfold pace
    rw [Finset.mul_sum]
    refine Finset.sum_le_sum (fun a ha => ?_)
    rw [mul_comm]
    exact mul_le_mul_of_nonneg_left (hRR a ((mem_joint hOK).1 ha)).1 (hπ.nonneg a ha)
  rw [hπ.one, mul_one] at this
  linarith

/-- Long-run averages are unique. -/
theorem longRun_unique {f g g' : List Nat → ℝ} {c c' : ℝ} (h : ∀ vals, N.InRange vals → f vals = g vals - next N rate g vals + c)
    (h' : ∀ vals, N.InRange vals → f vals = g' vals - next N rate g' vals + c') {z : List Nat} (hz : N.InRange z) : c = c' := by
  have key : ∀ {g g' : List Nat → ℝ} {c c' : ℝ}, (∀ vals, N.InRange vals → f vals = g vals - next N rate g vals + c) →
      (∀ vals, N.InRange vals → f vals = g' vals - next N rate g' vals + c') → ¬ c < c' := by
    intro g g' c c' h h' hlt
    obtain ⟨m, hm, hmin⟩ := Finset.exists_min_image N.joint (fun a => g a - g' a) ⟨z, (mem_joint hOK).2 hz⟩
    have hr := (mem_joint hOK).1 hm
    have h1 := h m hr
    have h2 := h' m hr
    have h3 : g m - g' m ≤ next N rate g m - next N rate g' m := by
      unfold next
      rw [← Finset.sum_sub_distrib]
      calc g m - g' m = ∑ s ∈ steps N, stepProb N rate m s * (g m - g' m) := by rw [← Finset.sum_mul, sum_stepProb hU hr, one_mul]
        _ ≤ _ := Finset.sum_le_sum (fun s hs => by
          rw [← mul_sub]
          exact mul_le_mul_of_nonneg_left (hmin _ ((mem_joint hOK).2 (hU.closed m hr s hs))) (stepProb_nonneg hU hr hs))
    linarith
  exact le_antisymm (not_lt.1 (key h' h)) (not_lt.1 (key h h'))

/-- There is a stationary distribution, and it is positive. -/
theorem exists_stationary (hconn : Connected N rate) : ∃ π, Stationary N rate π := by
  classical
  have hz : N.InRange (N.vars.map (fun _ => 0)) := by
    refine ⟨by simp, fun v hv => ?_⟩
    have : N.state (N.vars.map (fun _ => 0)) v = 0 := by
      unfold Ctbn.state
      rw [List.getElem?_map]
      cases N.vars[N.vars.idxOf v]? <;> rfl
    rw [this]; exact hOK.pos v hv
  have hex : ∀ v : List Nat, ∃ (g : List Nat → ℝ) (c : ℝ), (∀ vals, N.InRange vals → (if vals = v then (1 : ℝ) else 0) = g vals - next N rate g vals + c) ∧
      (N.InRange v → 0 < c) := by
    intro v
    obtain ⟨g, c, h1, h2⟩ := longRun hOK hU hconn (fun vals => if vals = v then (1 : ℝ) else 0)
    exact ⟨g, c, h1, fun hv => h2 (fun vals _ => by split_ifs <;> norm_num) ⟨v, hv, by simp⟩⟩
  choose g c hg hc using hex
  have hlin : ∀ {f g' : List Nat → ℝ} {c' : ℝ}, (∀ vals, N.InRange vals → f vals = g' vals - next N rate g' vals + c') → ∑ v ∈ N.joint, f v * c v = c' := by
    intro f g' c' h
    refine (longRun_unique hOK hU h (g' := fun vals => ∑ v ∈ N.joint, f v * g v vals) (c' := ∑ v ∈ N.joint, f v * c v) (fun vals hr => ?_) hz).symm
    have e1 : f vals = ∑ v ∈ N.joint, f v * (if vals = v then (1 : ℝ) else 0) := by
      rw [Finset.sum_eq_single vals]
      · simp
      · intro b _ hb; rw [if_neg (Ne.symm hb), mul_zero]
      · intro h; exact absurd ((mem_joint hOK).2 hr) h
    have e2 : next N rate (fun vals => ∑ v ∈ N.joint, f v * g v vals) vals = ∑ v ∈ N.joint, f v * next N rate (g v) vals := by
      unfold next
      simp only [Finset.mul_sum]
      rw [Finset.sum_comm]
      refine Finset.sum_congr rfl (fun v _ => Finset.sum_congr rfl (fun s _ => by ring))
    rw [e1, e2, ← Finset.sum_sub_distrib, ← Finset.sum_add_distrib]
    refine Finset.sum_congr rfl (fun v hv => ?_)
    rw [hg v vals hr]
    ring
  have hZ : 0 < ∑ v ∈ N.joint, c v / totalRate N rate v :=
    Finset.sum_pos (fun v hv => div_pos (hc v ((mem_joint hOK).1 hv)) (hU.pos v ((mem_joint hOK).1 hv))) ⟨_, (mem_joint hOK).2 hz⟩
  set Z := ∑ v ∈ N.joint, c v / totalRate N rate v with hZdef
  refine ⟨fun v => c v / totalRate N rate v / Z, fun a ha => ?_, ?_, fun b hb => ?_⟩
  · have h1 := hc a ((mem_joint hOK).1 ha)
    have h2 := hU.pos a ((mem_joint hOK).1 ha)
    positivity
  · rw [← Finset.sum_div, ← hZdef, div_self hZ.ne']
  · have h0 : ∑ v ∈ N.joint, ((if v = b then (1 : ℝ) else 0) - next N rate (fun v => if v = b then (1 : ℝ) else 0) v) * c v = 0 :=
      hlin (g' := fun v => if v = b then (1 : ℝ) else 0) (fun vals _ => by ring)
    simp only [sub_mul, Finset.sum_sub_distrib] at h0
    have e1 : ∑ v ∈ N.joint, (if v = b then (1 : ℝ) else 0) * c v = c b := by
      rw [Finset.sum_eq_single b]
      · simp
      · intro v _ hv; rw [if_neg hv, zero_mul]
      · intro h; exact absurd hb h
    rw [e1] at h0
    have e2 : ∀ v ∈ N.joint, next N rate (fun v => if v = b then (1 : ℝ) else 0) v * c v = c v / totalRate N rate v * flow N rate v b := by
      intro v hv
      have hr := (mem_joint hOK).1 hv
      have hR := (hU.pos v hr).ne'
      have := rate_next hOK hU (fun v => if v = b then (1 : ℝ) else 0) hr
      rw [Finset.sum_eq_single b (fun b' _ h => by rw [if_neg h, mul_zero]) (fun h => absurd hb h), if_pos rfl, mul_one] at this
      rw [← this]
      field_simp
    rw [Finset.sum_congr rfl e2] at h0
    have hRb := (hU.pos b ((mem_joint hOK).1 hb)).ne'
    have e3 : ∀ v ∈ N.joint, c v / totalRate N rate v / Z * flow N rate v b = (c v / totalRate N rate v * flow N rate v b) / Z := fun v _ => by ring
    rw [Finset.sum_congr rfl e3, ← Finset.sum_div, show ∑ v ∈ N.joint, c v / totalRate N rate v * flow N rate v b = c b by linarith]
    field_simp

theorem stationary_pos (hconn : Connected N rate) {π : List Nat → ℝ} (hπ : Stationary N rate π) {v : List Nat} (hv : N.InRange v) : 0 < π v := by
  classical
  obtain ⟨g, c, h1, h2⟩ := longRun hOK hU hconn (fun vals => if vals = v then (1 : ℝ) else 0)
  have hc := h2 (fun vals _ => by split_ifs <;> norm_num) ⟨v, hv, by simp⟩
  have h3 := longRun_value hOK hU hπ h1
  rw [Finset.sum_eq_single v (fun b _ h => by simp [h]) (fun h => absurd ((mem_joint hOK).2 hv) h), if_pos rfl, mul_one] at h3
  have h4 : 0 < π v * totalRate N rate v := by
    rw [← h3]
    exact mul_pos hc (pace_pos hOK hU hπ)
  exact pos_of_mul_pos_left h4 (hU.pos v hv).le

theorem stationary_unique (hconn : Connected N rate) {π π' : List Nat → ℝ} (hπ : Stationary N rate π) (hπ' : Stationary N rate π') {v : List Nat} (hv : N.InRange v) :
    π v = π' v := by
  classical
  have key : ∀ v, N.InRange v → π v * pace N rate π' = π' v * pace N rate π := by
    intro v hv
    obtain ⟨g, c, h1, -⟩ := longRun hOK hU hconn (fun vals => if vals = v then (1 : ℝ) else 0)
    have h3 := longRun_value hOK hU hπ h1
    have h4 := longRun_value hOK hU hπ' h1
    rw [Finset.sum_eq_single v (fun b _ h => by simp [h]) (fun h => absurd ((mem_joint hOK).2 hv) h), if_pos rfl, mul_one] at h3 h4
    have hR := (hU.pos v hv).ne'
    refine mul_right_cancel₀ hR ?_
    calc π v * pace N rate π' * totalRate N rate v = (π v * totalRate N rate v) * pace N rate π' := by ring
      _ = (π' v * totalRate N rate v) * pace N rate π := by rw [← h3, ← h4]; ring
      _ = _ := by ring
  have hsum : pace N rate π' = pace N rate π := by
    have := Finset.sum_congr (s₁ := N.joint) rfl (fun v hv => key v ((mem_joint hOK).1 hv))
    rw [← Finset.sum_mul, ← Finset.sum_mul, hπ.one, hπ'.one, one_mul, one_mul] at this
    exact this
  have := key v hv
  rw [hsum] at this
  exact mul_right_cancel₀ (pace_pos hOK hU hπ).ne' this

end

/-! ## Sums along the path -/

/-- Something counted at a step, and a share of the time between the rounded stamps. -/
def linStep (b : List Nat → Step → ℝ) (w : List Nat → ℝ) : Increment := fun vals t s a => b vals s + w vals * ((round4R (t + a) : ℝ) - round4R t)

theorem total_const (c : ℝ) {n : Nat} : ∀ (σ : Fin n → Step) (vals : List Nat) (t : ℝ) (h : Fin n → ℝ), total (fun _ _ _ _ => c) σ vals t h = n * c := by
  induction n with
  | zero => intros; simp [total]
  | succ n ih => intro σ vals t h; simp only [total, ih]; push_cast; ring

theorem expect_congr {n : Nat} {vals : List Nat} {F G : (Fin n → Step) → (Fin n → ℝ) → ℝ} (h : ∀ σ a, F σ a = G σ a) : expect N rate n vals F = expect N rate n vals G := by
  have : F = G := funext (fun σ => funext (fun a => h σ a))
  rw [this]

section
variable (hOK : N.OK) (hU : Usable N rate)
include hOK hU

theorem tame_simple (b : List Nat → Step → ℝ) (w : List Nat → ℝ) : ∃ A, Tame N (fun vals _ s a => b vals s + w vals * a) A := by
  obtain ⟨K, hK0, hK⟩ := bounded_inRange hOK w
  obtain ⟨K', hK0', hK'⟩ := bounded_inRange hOK (fun vals => ∑ s ∈ steps N, |b vals s|)
  refine ⟨K' + K, by positivity, fun vals s => measurable_const.add (measurable_snd.const_mul _), fun vals hr s hs t a => ?_⟩
  have h1 : |b vals s| ≤ K' := (Finset.single_le_sum (fun s _ => abs_nonneg (b vals s)) hs).trans ((le_abs_self _).trans (hK' vals hr))
  have h2 := hK vals hr
  calc |b vals s + w vals * a| ≤ |b vals s| + |w vals| * |a| := (abs_add_le _ _).trans (by rw [abs_mul])
    _ ≤ K' + K * |a| := add_le_add h1 (mul_le_mul_of_nonneg_right h2 (abs_nonneg a))
    _ ≤ (K' + K) * (1 + |a|) := by nlinarith [abs_nonneg a]

/-- The deviation of a sum from its long-run average: increments of at most linear growth, whose sums have bounded means. -/
theorem centered_bounded (hconn : Connected N rate) {π : List Nat → ℝ} (hπ : Stationary N rate π) (b : List Nat → Step → ℝ) (w : List Nat → ℝ) {c : ℝ}
    (hcv : c = (∑ a ∈ N.joint, π a * (∑ s ∈ steps N, rate a (N.vars.getD s.1 "") s.2 * b a s + w a)) / pace N rate π) :
    ∃ (A C Rm : ℝ), 0 < Rm ∧ (∀ vals, N.InRange vals → Rm ≤ totalRate N rate vals) ∧ (∃ A₀, Tame N (linStep b w) A₀) ∧
      Tame N (fun vals t s a => linStep b w vals t s a - c) A ∧
      ∀ n vals, N.InRange vals → ∀ t, |meanTotal N rate (fun vals t s a => linStep b w vals t s a - c) n vals t| ≤ C := by
  obtain ⟨Rm, RM, hRm, hRR⟩ := rate_bounds hOK hU
  obtain ⟨g, c', hg, -⟩ := longRun hOK hU hconn (fun vals => ∑ s ∈ steps N, stepProb N rate vals s * b vals s + w vals / totalRate N rate vals)
  have hval : c' = c := by
    rw [hcv, eq_div_iff (pace_pos hOK hU hπ).ne', longRun_value hOK hU hπ hg]
    refine Finset.sum_congr rfl (fun a ha => ?_)
    have hR := (hU.pos a ((mem_joint hOK).1 ha)).ne'
    congr 1
    rw [mul_add, mul_div_cancel₀ _ hR, Finset.mul_sum]
    congr 1
    refine Finset.sum_congr rfl (fun s _ => ?_)
    unfold stepProb
    field_simp
  subst hval
  clear hcv
  obtain ⟨m, hosc⟩ := roundError_osc
  obtain ⟨Kw, hKw0, hKw⟩ := bounded_inRange hOK w
  obtain ⟨K, hK0, hK⟩ := bounded_inRange hOK g
  let b' := fun vals s => b vals s - c'
  obtain ⟨A1, hA1⟩ := tame_simple hOK hU b' w
  obtain ⟨A0, hA0⟩ := tame_simple hOK hU b w
  have hA2 := tame_errorStep (N := N) hKw0 hKw hosc.meas hosc.bound
  have hA := hA1.add hA2
  have esum : ∀ vals t s a, (b' vals s + w vals * a) + errorStep w (fun t => roundError t - m) vals t s a = linStep b w vals t s a - c' := by
    intro vals t s a
    unfold errorStep linStep roundError
    simp only [b']
    ring
  have hT : Tame N (linStep b w) (A0 + Kw * (2 * (1 / 20000 + |m|))) := by
    have := hA0.add hA2
    convert this using 2
    funext t s a
    unfold errorStep linStep roundError
    ring
  have hmean : ∀ vals, N.InRange vals → ∀ t : ℝ, ∑ s ∈ steps N, stepProb N rate vals s * ∫ a, (b' vals s + w vals * a) ∂expMeasure (totalRate N rate vals)
      = g vals - next N rate g vals := by
    intro vals hr t
    have hR := hU.pos vals hr
    have hP := isProbabilityMeasure_expMeasure hR
    have e : ∀ s ∈ steps N, stepProb N rate vals s * ∫ a, (b' vals s + w vals * a) ∂expMeasure (totalRate N rate vals)
        = stepProb N rate vals s * b vals s + stepProb N rate vals s * (w vals / totalRate N rate vals - c') := by
      intro s _
      rw [integral_add (integrable_const _) ((Clocks.exp_integrable hR).const_mul _), integral_const, integral_const_mul, Clocks.exp_mean hR]
      simp only [probReal_univ, one_smul, b']
      ring
    rw [Finset.sum_congr rfl e, Finset.sum_add_distrib, ← Finset.sum_mul, sum_stepProb hU hr]
    have := hg vals hr
    linarith
  have hb1 := fun n {vals} (hr : N.InRange vals) t => meanTotal_bounded hU hA1 hK (fun vals hr s _ t => by
    have hR := hU.pos vals hr
    have hP := isProbabilityMeasure_expMeasure hR
    exact (integrable_const _).add ((Clocks.exp_integrable hR).const_mul _)) hmean n hr t
  have hb2 := fun n {vals} (hr : N.InRange vals) t => errorStep_bounded hU hKw0 hKw (by norm_num : (0 : ℝ) < 1 / 5000) hosc hRm hRR n hr t
  set C := 2 * K + Kw * (2 * (1 / 20000 + |m|)) / (Rm * Real.exp (-(RM * (1 / 5000))) * (1 / 5000)) with hC
  have hC0 : 0 ≤ C := by positivity
  have hbound : ∀ n vals, N.InRange vals → ∀ t, |meanTotal N rate (fun vals t s a => (b' vals s + w vals * a) + errorStep w (fun t => roundError t - m) vals t s a) n vals t| ≤ C := by
    intro n vals hr t
    rw [meanTotal_add hU hA1 hA2 n hr t]
    exact (abs_add_le _ _).trans (add_le_add (hb1 n hr t) (hb2 n hr t))
  simp only [esum] at hbound hA
  exact ⟨_, C, Rm, hRm, fun vals hr => (hRR vals hr).1, ⟨_, hT⟩, hA, hbound⟩

/-- The second moment of the deviation of a sum from its long-run average grows at most linearly. -/
theorem lln_bound (hconn : Connected N rate) {π : List Nat → ℝ} (hπ : Stationary N rate π) (b : List Nat → Step → ℝ) (w : List Nat → ℝ) :
    ∃ (A B : ℝ), 0 ≤ B ∧ Tame N (linStep b w) A ∧ ∀ (n : Nat) {vals : List Nat}, N.InRange vals → ∀ t, expect N rate n vals (fun σ h =>
      (total (linStep b w) σ vals t h - n * ((∑ a ∈ N.joint, π a * (∑ s ∈ steps N, rate a (N.vars.getD s.1 "") s.2 * b a s + w a)) / pace N rate π)) ^ 2) ≤ B * n := by
  obtain ⟨A, C, Rm, hRm, hle, ⟨A₀, hT⟩, hA, hbound⟩ := centered_bounded hOK hU hconn hπ b w rfl
  set c := (∑ a ∈ N.joint, π a * (∑ s ∈ steps N, rate a (N.vars.getD s.1 "") s.2 * b a s + w a)) / pace N rate π with hc
  have hz : N.InRange (N.vars.map (fun _ => 0)) := by
    refine ⟨by simp, fun v hv => ?_⟩
    have : N.state (N.vars.map (fun _ => 0)) v = 0 := by
      unfold Ctbn.state
      rw [List.getElem?_map]
      cases N.vars[N.vars.idxOf v]? <;> rfl
    rw [this]; exact hOK.pos v hv
  have hC0 : 0 ≤ C := (abs_nonneg _).trans (hbound 0 _ hz 0)
  have hsec := second_moment hU hA hRm hle hbound
  refine ⟨_, (1 + C) * (A ^ 2 * (2 + 4 / Rm ^ 2)) + C, by positivity, hT, fun n vals hr t => ?_⟩
  have h1 := hsec n hr t
  rw [mul_comm (n : ℝ)] at h1
  refine le_trans (le_of_eq (expect_congr (fun σ h => ?_))) h1
  have e2 := total_add (linStep b w) (fun _ _ _ _ => -c) σ vals t h
  simp only [← sub_eq_add_neg] at e2
  rw [e2, total_const]
  ring

end

end

end PyCTBN.JumpPaths
