import Verif.Props.Exponential

/-!
# How fast wrong structures become unlikely: C224
-/

open MeasureTheory ProbabilityTheory Filter
open scoped ENNReal Topology

namespace PyCTBN
open Spec JumpPaths Indep

noncomputable section

/-! ## Rates -/

/-- Failures are rare: their probabilities are at most a constant times `exp (-γ * g n)`, for some `γ > 0`. -/
def RareRate {Ω : Type} [MeasurableSpace Ω] (μ : Measure Ω) (g : ℕ → ℝ) (S : ℕ → Ω → Prop) : Prop :=
  ∃ γ C : ℝ, 0 < γ ∧ 0 ≤ C ∧ ∀ n : ℕ, 1 ≤ n → μ {ω | ¬ S n ω} ≤ ENNReal.ofReal (C * Real.exp (-(γ * g n)))

section
variable {Ω : Type} [MeasurableSpace Ω] {μ : Measure Ω} {g : ℕ → ℝ}

theorem RareRate.mono {S S' : ℕ → Ω → Prop} (h : RareRate μ g S) (hS : ∀ n ω, 1 ≤ n → S n ω → S' n ω) : RareRate μ g S' := by
  obtain ⟨γ, C, hγ, hC, h⟩ := h
  exact ⟨γ, C, hγ, hC, fun n hn => (measure_mono (fun ω (hω : ¬ S' n ω) (hs : S n ω) => hω (hS n ω hn hs))).trans (h n hn)⟩

theorem RareRate.and (hg : ∀ n, 0 ≤ g n) {S S' : ℕ → Ω → Prop} (h : RareRate μ g S) (h' : RareRate μ g S') : RareRate μ g (fun n ω => S n ω ∧ S' n ω) := by
  obtain ⟨γ, C, hγ, hC, h⟩ := h
  obtain ⟨γ', C', hγ', hC', h'⟩ := h'
  refine ⟨min γ γ', C + C', lt_min hγ hγ', by positivity, fun n hn => ?_⟩
  have e : {ω | ¬ (S n ω ∧ S' n ω)} ⊆ {ω | ¬ S n ω} ∪ {ω | ¬ S' n ω} := fun ω hω => by
    by_cases hs : S n ω
    · exact Or.inr (fun hs' => hω ⟨hs, hs'⟩)
    · exact Or.inl hs
  refine (measure_mono e).trans ((measure_union_le _ _).trans ((add_le_add (h n hn) (h' n hn)).trans ?_))
  rw [← ENNReal.ofReal_add (by positivity) (by positivity), add_mul]
  refine ENNReal.ofReal_le_ofReal (add_le_add (mul_le_mul_of_nonneg_left (Real.exp_le_exp.2 (neg_le_neg ?_)) hC) (mul_le_mul_of_nonneg_left (Real.exp_le_exp.2 (neg_le_neg ?_)) hC'))
  · exact mul_le_mul_of_nonneg_right (min_le_left _ _) (hg n)
  · exact mul_le_mul_of_nonneg_right (min_le_right _ _) (hg n)

theorem RareRate.of_ae {S : ℕ → Ω → Prop} (h : ∀ n, 1 ≤ n → ∀ᵐ ω ∂μ, S n ω) : RareRate μ g S := by
  refine ⟨1, 0, one_pos, le_rfl, fun n hn => ?_⟩
  rw [show μ {ω | ¬ S n ω} = 0 from h n hn]
  exact zero_le

theorem RareRate.all_lt (hg : ∀ n, 0 ≤ g n) {S : ℕ → ℕ → Ω → Prop} : ∀ k : ℕ, (∀ i < k, RareRate μ g (S i)) → RareRate μ g (fun n ω => ∀ i < k, S i n ω) := by
  intro k
  induction k with
  | zero => exact fun _ => RareRate.of_ae (fun n _ => .of_forall (fun ω i hi => absurd hi (Nat.not_lt_zero i)))
  | succ k ih =>
    intro h
    refine ((ih (fun i hi => h i (by omega))).and hg (h k (by omega))).mono (fun n ω _ ⟨h1, h2⟩ i hi => ?_)
    rcases Nat.lt_succ_iff_lt_or_eq.1 hi with hi | rfl
    · exact h1 i hi
    · exact h2

theorem RareRate.slower {g' : ℕ → ℝ} (hg : ∀ n, 1 ≤ n → g' n ≤ g n) {S : ℕ → Ω → Prop} (h : RareRate μ g S) : RareRate μ g' S := by
  obtain ⟨γ, C, hγ, hC, h⟩ := h
  exact ⟨γ, C, hγ, hC, fun n hn => (h n hn).trans (ENNReal.ofReal_le_ofReal (mul_le_mul_of_nonneg_left
    (Real.exp_le_exp.2 (neg_le_neg (mul_le_mul_of_nonneg_left (hg n hn) hγ.le))) hC))⟩

theorem RareRate.coordinate [IsProbabilityMeasure μ] {S : ℕ → Ω → Prop} (h : RareRate μ g S) (i : ℕ) :
    RareRate (Measure.infinitePi (fun _ : ℕ => μ)) g (fun n ω => S n (ω i)) := by
  obtain ⟨γ, C, hγ, hC, h⟩ := h
  refine ⟨γ, C, hγ, hC, fun n hn => le_trans ?_ (h n hn)⟩
  have hev : MeasurePreserving (fun ω : ℕ → Ω => ω i) (Measure.infinitePi (fun _ : ℕ => μ)) μ := measurePreserving_eval_infinitePi _ i
  have := Measure.le_map_apply (μ := Measure.infinitePi (fun _ : ℕ => μ)) (measurable_pi_apply i).aemeasurable {a | ¬ S n a}
  rw [hev.map_eq] at this
  exact this

/-- If along every sequence of data of growing length whose countably many deviations vanish there is a success, then failures are as rare as these deviations are. -/
theorem rare_of_sequences [IsProbabilityMeasure μ] (hg : ∀ n, 0 ≤ g n) {Q : Type} [Countable Q] [Nonempty Q] {dev : Q → ℕ → Ω → ℝ} {ok S : ℕ → Ω → Prop}
    (hok : ∀ n, 1 ≤ n → ∀ᵐ ω ∂μ, ok n ω)
    (hS : ∀ (n : ℕ → ℕ) (ω : ℕ → Ω), (∀ k, k ≤ n k) → (∀ q, Tendsto (fun k => dev q (n k) (ω k)) atTop (𝓝 0)) → (∀ k, ok (n k) (ω k)) → ∃ k, S (n k) (ω k))
    (hrate : ∀ q, ∀ ε > 0, RareRate μ g (fun n ω => |dev q n ω| < ε)) : RareRate μ g S := by
  obtain ⟨f, hf⟩ := exists_surjective_nat Q
  have hk : ∃ k : ℕ, ∀ n, k ≤ n → ∀ ω, ok n ω → (∀ i < k, |dev (f i) n ω| < 1 / ((k : ℝ) + 1)) → S n ω := by
    by_contra hcon
    push Not at hcon
    choose n hn ω h1 h2 h3 using hcon
    obtain ⟨k, hk⟩ := hS n ω hn (fun q => by
      obtain ⟨i, rfl⟩ := hf q
      refine squeeze_zero_norm' ?_ tendsto_one_div_add_atTop_nhds_zero_nat
      filter_upwards [eventually_gt_atTop i] with k hk
      rw [Real.norm_eq_abs]
      exact (h2 k i hk).le) h1
    exact h3 k hk
  obtain ⟨k, hk⟩ := hk
  obtain ⟨γ, C, hγ, hC, h⟩ := (RareRate.of_ae (μ := μ) (g := g) hok).and hg
    (RareRate.all_lt hg k (fun i _ => hrate (f i) (1 / ((k : ℝ) + 1)) (by positivity)))
  set G := ∑ i ∈ Finset.range k, g i with hG
  have hG0 : 0 ≤ G := Finset.sum_nonneg (fun i _ => hg i)
  refine ⟨γ, C + Real.exp (γ * G), hγ, by positivity, fun n hn => ?_⟩
  rcases lt_or_ge n k with hnk | hnk
  · refine prob_le_one.trans ?_
    rw [← ENNReal.ofReal_one]
    refine ENNReal.ofReal_le_ofReal ?_
    have h1 : g n ≤ G := Finset.single_le_sum (f := g) (fun i _ => hg i) (Finset.mem_range.2 hnk)
    have h2 : 1 ≤ Real.exp (γ * G) * Real.exp (-(γ * g n)) := by
      rw [← Real.exp_add]
      refine Real.one_le_exp ?_
      have := mul_le_mul_of_nonneg_left h1 hγ.le
      linarith
    have h3 : 0 ≤ C * Real.exp (-(γ * g n)) := by positivity
    rw [add_mul]
    linarith
  · refine (measure_mono (fun ω (hω : ¬ S n ω) (hs : ok n ω ∧ ∀ i < k, |dev (f i) n ω| < 1 / ((k : ℝ) + 1)) => hω (hk n hnk ω hs.1 hs.2))).trans ((h n hn).trans (ENNReal.ofReal_le_ofReal ?_))
    exact mul_le_mul_of_nonneg_right (by linarith [Real.exp_pos (γ * G)]) (Real.exp_pos _).le

theorem ExpRare.rate {X : ℕ → Ω → ℝ} {c : ℝ} (h : ExpRare μ X c) {ε : ℝ} (hε : 0 < ε) : RareRate μ (fun n => (n : ℝ)) (fun n ω => |X n ω - c| < ε) := by
  obtain ⟨a, C, ha, hC, h⟩ := h
  have he : 0 < min ε 1 := lt_min hε one_pos
  refine ⟨a * min ε 1 ^ 2, C, by positivity, by linarith, fun n _ => (measure_mono (fun ω hω => ?_)).trans (h n (min ε 1) he (min_le_right _ _))⟩
  simp only [Set.mem_ofPred_eq, not_lt] at hω ⊢
  exact (min_le_left _ _).trans hω

/-- Sums with exponential tails exceed the square root of the length times its logarithm with polynomially small probability. -/
theorem rare_of_tail {X Y : ℕ → Ω → ℝ} {B K θ₀ : ℝ} (hB : 0 < B) (hK : 0 ≤ K) (hθ₀ : 0 < θ₀) (hXY : ∀ n ω, |X n ω - Y n ω| ≤ 1)
    (h : ∀ j : ℕ, ∀ θ : ℝ, 0 ≤ θ → θ ≤ θ₀ → ∀ δ : ℝ, μ {ω | δ ≤ |Y j ω - j * 0|} ≤ ENNReal.ofReal (2 * Real.exp (-(θ * δ) + B * θ ^ 2 * j + K * θ))) {ε : ℝ} (hε : 0 < ε) :
    RareRate μ (fun n : ℕ => Real.log n) (fun n ω => |X n ω ^ 2 / (n * Real.log n)| < ε) := by
  set s := Real.sqrt ε with hs
  have hs0 : 0 < s := Real.sqrt_pos.2 hε
  set κ := min (s / (2 * B)) θ₀ with hκ
  have hκ0 : 0 < κ := lt_min (by positivity) hθ₀
  have hκB : B * κ ≤ s / 2 := by
    have : κ ≤ s / (2 * B) := min_le_left _ _
    calc B * κ ≤ B * (s / (2 * B)) := mul_le_mul_of_nonneg_left this hB.le
      _ = s / 2 := by field_simp
  refine ⟨κ * s / 2, 2 * Real.exp ((K + 1) * κ), by positivity, by positivity, fun n hn => ?_⟩
  rcases eq_or_lt_of_le hn with rfl | hn1
  · simp [hε]
  have hn' : (1 : ℝ) < n := by exact_mod_cast hn1
  have hl := Real.log_pos hn'
  set a := Real.sqrt (Real.log n) with ha
  set b := Real.sqrt n with hb
  have ha0 : 0 < a := Real.sqrt_pos.2 hl
  have hb0 : 0 < b := Real.sqrt_pos.2 (by linarith)
  have ha2 : a ^ 2 = Real.log n := Real.sq_sqrt hl.le
  have hb2 : b ^ 2 = n := Real.sq_sqrt (by linarith)
  have hab : a / b ≤ 1 := by
    rw [div_le_one hb0]
    exact Real.sqrt_le_sqrt (Real.log_le_self (by linarith))
  have hκab : κ * (a / b) ≤ κ := mul_le_of_le_one_right hκ0.le hab
  refine (measure_mono (fun ω hω => ?_)).trans ((h n (κ * (a / b)) (by positivity) (hκab.trans (min_le_right _ _)) (s * (a * b) - 1)).trans (ENNReal.ofReal_le_ofReal ?_))
  · simp only [Set.mem_ofPred_eq, not_lt] at hω ⊢
    rw [← ha2, ← hb2, abs_of_nonneg (by positivity), le_div_iff₀ (by positivity)] at hω
    have h1 : s * (a * b) ≤ |X n ω| := by
      refine abs_le_of_sq_le_sq' ?_ (abs_nonneg _) |>.2
      rw [sq_abs, mul_pow, hs, Real.sq_sqrt hε.le, mul_pow]
      linarith
    have h2 := abs_sub_le (X n ω) (Y n ω) 0
    have h3 := hXY n ω
    rw [mul_zero]
    simp only [sub_zero] at h2 ⊢
    linarith
  · rw [mul_assoc 2 (Real.exp _) (Real.exp _), ← Real.exp_add]
    refine mul_le_mul_of_nonneg_left (Real.exp_le_exp.2 ?_) (by norm_num)
    have e1 : κ * (a / b) * (s * (a * b) - 1) = κ * s * Real.log n - κ * (a / b) := by
      rw [← ha2]; field_simp
    have e2 : B * (κ * (a / b)) ^ 2 * n = B * κ * (κ * Real.log n) := by
      rw [← ha2, ← hb2]; field_simp
    rw [e1, e2]
    have h1 : B * κ * (κ * Real.log n) ≤ s / 2 * (κ * Real.log n) := mul_le_mul_of_nonneg_right hκB (by positivity)
    have h2 : K * (κ * (a / b)) ≤ K * κ := mul_le_mul_of_nonneg_left hκab hK
    linarith

end

/-! ## Deviations of the statistics -/

open Classical in
/-- The deviations of the mean times and of the mean counts from their stationary values. -/
def deviation (N : Ctbn) (π : List Nat → ℝ) (k : ℝ) (q : Bool × Label × List Label × ℕ × ℕ × List ℕ) (n : ℝ) (rows : List RawTraj) : ℝ :=
  if q.2.1 ∈ N.vars ∧ (∀ p ∈ q.2.2.1, p ∈ N.vars) then
    if q.1 then (rawResidence N.vars rows q.2.1 q.2.2.1 q.2.2.2.1 q.2.2.2.2.2 : ℝ) / n - share N π q.2.1 q.2.2.1 q.2.2.2.1 q.2.2.2.2.2 / k
    else if q.2.2.2.2.1 < N.card q.2.1 ∧ q.2.2.2.2.1 ≠ q.2.2.2.1 then
      (rawTransitions N.vars rows q.2.1 q.2.2.1 q.2.2.2.1 q.2.2.2.2.1 q.2.2.2.2.2 : ℝ) / n - flux N N.inverseRates π q.2.1 q.2.2.1 q.2.2.2.1 q.2.2.2.2.1 q.2.2.2.2.2 / k
    else 0
  else 0

open Classical in
/-- The deviations of the counts from the rates times the times, given all parents. -/
def imbalance (N : Ctbn) (q : Label × List Label × ℕ × ℕ × List ℕ) (n : ℝ) (rows : List RawTraj) : ℝ :=
  if q.1 ∈ N.vars ∧ (∀ p ∈ q.2.1, p ∈ N.vars) ∧ (∀ p ∈ N.parents q.1, p ∈ q.2.1) ∧ q.2.2.2.1 < N.card q.1 ∧ q.2.2.2.1 ≠ q.2.2.1 then
    ((rawTransitions N.vars rows q.1 q.2.1 q.2.2.1 q.2.2.2.1 q.2.2.2.2 : ℝ)
      - N.inverseAt q.1 (N.parentPart q.1 q.2.1 q.2.2.2.2) q.2.2.1 q.2.2.2.1 * (rawResidence N.vars rows q.1 q.2.1 q.2.2.1 q.2.2.2.2 : ℝ)) ^ 2 / (n * Real.log n)
  else 0

theorem close_of_deviations {N : Ctbn} {π : List Nat → ℝ} {k : ℝ} {n : ℕ → ℕ} {rows : ℕ → List RawTraj}
    (h : ∀ q, Tendsto (fun j => deviation N π k q (n j) (rows j)) atTop (𝓝 0)) :
    (∀ v ∈ N.vars, ∀ L : List Label, (∀ p ∈ L, p ∈ N.vars) → ∀ (x : Nat) (u : List Nat),
      Tendsto (fun m => (rawResidence N.vars (rows m) v L x u : ℝ) / n m) atTop (𝓝 (share N π v L x u / k))) ∧
    (∀ v ∈ N.vars, ∀ L : List Label, (∀ p ∈ L, p ∈ N.vars) → ∀ (x : Nat) (u : List Nat), ∀ y < N.card v, y ≠ x →
      Tendsto (fun m => (rawTransitions N.vars (rows m) v L x y u : ℝ) / n m) atTop (𝓝 (flux N N.inverseRates π v L x y u / k))) := by
  refine ⟨fun v hv L hL x u => ?_, fun v hv L hL x u y hy hyx => ?_⟩
  · have := h (true, v, L, x, 0, u)
    simp only [deviation, if_pos (And.intro hv hL), if_true] at this
    exact tendsto_sub_nhds_zero_iff.1 this
  · have := h (false, v, L, x, y, u)
    simp only [deviation, if_pos (And.intro hv hL), if_pos (And.intro hy hyx), Bool.false_eq_true, if_false] at this
    exact tendsto_sub_nhds_zero_iff.1 this

section
variable {net : SampleNet} {N : Ctbn} (hD : Describes net N) (hOK : N.OK)
include hD hOK
variable {U : Type} [MeasurableSpace U] {P : Measure U} [IsProbabilityMeasure P] (C : Categorical U P)

theorem deviation_rare (hc : N.Conservative) (hirr : N.Irreducible) {π : List Nat → ℝ} (hπ : Stationary N N.inverseRates π) (q : Bool × Label × List Label × ℕ × ℕ × List ℕ)
    {ε : ℝ} (hε : 0 < ε) : RareRate (drawLaw N.vars.length P) (fun n => (n : ℝ)) (fun n ω => |deviation N π (pace N N.inverseRates π) q n [sampledRows net C n ω]| < ε) := by
  obtain ⟨k, v, L, x, y, u⟩ := q
  by_cases h1 : v ∈ N.vars ∧ ∀ p ∈ L, p ∈ N.vars
  · obtain ⟨s1, s2⟩ := statistics_expRare hD hOK C hc hirr hπ h1.1 h1.2 x u
    cases k
    · by_cases h2 : y < N.card v ∧ y ≠ x
      · refine ((s2 y h2.1 h2.2).rate hε).mono (fun n ω _ hω => ?_)
        simp only [deviation, if_pos h1, if_pos h2, Bool.false_eq_true, if_false]
        exact hω
      · refine RareRate.of_ae (fun n _ => .of_forall (fun ω => ?_))
        simp only [deviation, if_pos h1, if_neg h2, Bool.false_eq_true, if_false, abs_zero]
        exact hε
    · refine (s1.rate hε).mono (fun n ω _ hω => ?_)
      simp only [deviation, if_pos h1, if_true]
      exact hω
  · refine RareRate.of_ae (fun n _ => .of_forall (fun ω => ?_))
    simp only [deviation, if_neg h1, abs_zero]
    exact hε

theorem imbalance_rare (hc : N.Conservative) (hirr : N.Irreducible) (q : Label × List Label × ℕ × ℕ × List ℕ)
    {ε : ℝ} (hε : 0 < ε) : RareRate (drawLaw N.vars.length P) (fun n : ℕ => Real.log n) (fun n ω => |imbalance N q n [sampledRows net C n ω]| < ε) := by
  obtain ⟨v, L, x, y, u⟩ := q
  by_cases h1 : v ∈ N.vars ∧ (∀ p ∈ L, p ∈ N.vars) ∧ (∀ p ∈ N.parents v, p ∈ L) ∧ y < N.card v ∧ y ≠ x
  · obtain ⟨hv, hL, hP, hy, hxy⟩ := h1
    obtain ⟨π, hπ, -⟩ := sample_stationary hD hOK hc hirr
    set r := N.inverseAt v (N.parentPart v L u) x y with hr
    obtain ⟨B, K, θ₀, hB, hK, hθ₀, h⟩ := sampled_total_tail hD hOK C hc hirr hπ (caseStep N v L x y u) (fun a => -r * caseInd N v L x u a) (c := 0) (by
      rw [zero_mul]
      refine Finset.sum_eq_zero (fun a ha => ?_)
      rw [sum_caseStep hOK a hv L x hy u]
      unfold caseInd
      split_ifs with hcase
      · rw [inverse_at hD hOK hc hv hxy ((mem_joint hOK).1 ha) (parentStates_of hP hcase), ← hr]; ring
      · simp)
    refine (rare_of_tail (X := fun n ω => (rawTransitions N.vars [sampledRows net C n ω] v L x y u : ℝ) - r * (rawResidence N.vars [sampledRows net C n ω] v L x u : ℝ))
      hB hK hθ₀ (fun n ω => ?_) h hε).mono (fun n ω _ hω => ?_)
    · obtain ⟨h0, h1, h2⟩ := sampledRows_sums hD hOK C hv hL hxy u n ω
      rw [listTotal_sub, h0, abs_le]
      constructor <;> linarith
    · simp only [imbalance, if_pos (⟨hv, hL, hP, hy, hxy⟩ : v ∈ N.vars ∧ (∀ p ∈ L, p ∈ N.vars) ∧ (∀ p ∈ N.parents v, p ∈ L) ∧ y < N.card v ∧ y ≠ x)]
      exact hω
  · refine RareRate.of_ae (fun n _ => .of_forall (fun ω => ?_))
    simp only [imbalance, if_neg h1, abs_zero]
    exact hε

omit hD hOK in
theorem grows_of_ge {n : ℕ → ℕ} (hn : ∀ j, j ≤ n j) : Tendsto (fun j => (n j : ℝ)) atTop atTop :=
  tendsto_natCast_atTop_atTop.comp (tendsto_atTop_mono hn tendsto_id)

/-- What succeeds somewhere along every sequence of `K` trajectories whose statistics settle fails with polynomially small probability. -/
theorem strong_rate (hc : N.Conservative) (hirr : N.Irreducible) {π : List Nat → ℝ} (hπ : Stationary N N.inverseRates π) {K : Nat} (hK : 0 < K) {S : ℕ → List RawTraj → Prop}
    (hS : ∀ (n : ℕ → ℕ) (rows : ℕ → List RawTraj), StrongRows N π atTop (fun j => (n j : ℝ)) (pace N N.inverseRates π / K) rows → ∃ j, S (n j) (rows j)) :
    RareRate (manyLaw N.vars.length P) (fun n : ℕ => Real.log n) (fun n ω => S n (pooledRows net C n K ω)) := by
  have hpos := leaves_of_conservative hD hOK hc
  have hp := pace_pos hOK (usable_inverse hD hOK hpos) hπ
  have hdraw : IsProbabilityMeasure (drawLaw N.vars.length P) := by unfold drawLaw; infer_instance
  have hmany : IsProbabilityMeasure (manyLaw N.vars.length P) := by unfold manyLaw; infer_instance
  have hne : Nonempty (Fin K) := ⟨⟨0, hK⟩⟩
  have hlog : ∀ n : ℕ, 0 ≤ Real.log n := fun n => Real.log_natCast_nonneg n
  refine rare_of_sequences (Q := Fin K × ((Bool × Label × List Label × ℕ × ℕ × List ℕ) ⊕ (Label × List Label × ℕ × ℕ × List ℕ)))
    (dev := fun q n ω => match q with
      | (i, .inl q) => deviation N π (pace N N.inverseRates π) q n [sampledRows net C n (ω i)]
      | (i, .inr q) => imbalance N q n [sampledRows net C n (ω i)])
    (ok := fun n ω => 1 ≤ n → ∀ i : ℕ, UsableRows N (sampledRows net C n (ω i))) hlog (fun n hn => ?_) (fun n ω hn hdev hok => ?_) (fun q ε hε => ?_)
  · have hco : ∀ i : ℕ, ∀ᵐ ω ∂manyLaw N.vars.length P, UsableRows N (sampledRows net C n (ω i)) := by
      intro i
      have hev : MeasurePreserving (fun ω : ℕ → ℕ → (Fin N.vars.length → ℝ) × U => ω i) (Measure.infinitePi (fun _ : ℕ => drawLaw N.vars.length P)) (drawLaw N.vars.length P) :=
        measurePreserving_eval_infinitePi _ i
      exact hev.quasiMeasurePreserving.ae (sampled_rows_usable hD hOK C hpos hn)
    filter_upwards [ae_all_iff.2 hco] with ω hω _
    exact hω
  · refine hS n (fun j => pooledRows net C (n j) K (ω j)) ?_
    simp only [pooledRows, List.map_eq_flatMap]
    refine StrongRows.pool (rows := fun i j => [sampledRows net C (n j) (ω j i)]) hK (fun i hi => ?_)
    obtain ⟨h1, h2⟩ := close_of_deviations (fun q => hdev (⟨i, hi⟩, .inl q))
    refine ⟨grows_of_ge hn, hp, h1, h2, fun v hv L hL hP x u y hy hyx => ?_, ?_⟩
    · have := hdev (⟨i, hi⟩, .inr (v, L, x, y, u))
      simp only [imbalance, if_pos (⟨hv, hL, hP, hy, hyx⟩ : v ∈ N.vars ∧ (∀ p ∈ L, p ∈ N.vars) ∧ (∀ p ∈ N.parents v, p ∈ L) ∧ y < N.card v ∧ y ≠ x)] at this
      exact this
    · filter_upwards [eventually_ge_atTop 1] with j hj
      exact usableData_single (hok j (hj.trans (hn j)) i)
  · obtain ⟨i, q | q⟩ := q
    · exact ((deviation_rare hD hOK C hc hirr hπ q hε).coordinate i).slower (fun n hn => (Real.log_le_self (Nat.cast_nonneg n)))
    · exact (imbalance_rare hD hOK C hc hirr q hε).coordinate i

/-- What succeeds somewhere along every sequence of `K` trajectories whose mean times and counts settle fails with exponentially small probability. -/
theorem close_rate (hc : N.Conservative) (hirr : N.Irreducible) {π : List Nat → ℝ} (hπ : Stationary N N.inverseRates π) {K : Nat} (hK : 0 < K) {S : ℕ → List RawTraj → Prop}
    (hS : ∀ (n : ℕ → ℕ) (rows : ℕ → List RawTraj), CloseRows N π (Measure.dirac ()) atTop (fun j => (n j : ℝ)) (pace N N.inverseRates π / K) (fun j _ => rows j) → ∃ j, S (n j) (rows j)) :
    RareRate (manyLaw N.vars.length P) (fun n : ℕ => (n : ℝ)) (fun n ω => S n (pooledRows net C n K ω)) := by
  have hpos := leaves_of_conservative hD hOK hc
  have hp := pace_pos hOK (usable_inverse hD hOK hpos) hπ
  have hdraw : IsProbabilityMeasure (drawLaw N.vars.length P) := by unfold drawLaw; infer_instance
  have hmany : IsProbabilityMeasure (manyLaw N.vars.length P) := by unfold manyLaw; infer_instance
  have hne : Nonempty (Fin K) := ⟨⟨0, hK⟩⟩
  have hK' : (0 : ℝ) < K := by exact_mod_cast hK
  refine rare_of_sequences (Q := Fin K × (Bool × Label × List Label × ℕ × ℕ × List ℕ))
    (dev := fun q n ω => deviation N π (pace N N.inverseRates π) q.2 n [sampledRows net C n (ω q.1)])
    (ok := fun n ω => 1 ≤ n → ∀ i : ℕ, UsableRows N (sampledRows net C n (ω i))) (fun n => Nat.cast_nonneg n) (fun n hn => ?_) (fun n ω hn hdev hok => ?_) (fun q ε hε => ?_)
  · have hco : ∀ i : ℕ, ∀ᵐ ω ∂manyLaw N.vars.length P, UsableRows N (sampledRows net C n (ω i)) := by
      intro i
      have hev : MeasurePreserving (fun ω : ℕ → ℕ → (Fin N.vars.length → ℝ) × U => ω i) (Measure.infinitePi (fun _ : ℕ => drawLaw N.vars.length P)) (drawLaw N.vars.length P) :=
        measurePreserving_eval_infinitePi _ i
      exact hev.quasiMeasurePreserving.ae (sampled_rows_usable hD hOK C hpos hn)
    filter_upwards [ae_all_iff.2 hco] with ω hω _
    exact hω
  · refine hS n (fun j => pooledRows net C (n j) K (ω j)) ?_
    have hcl := fun (i : ℕ) (hi : i < K) => close_of_deviations (N := N) (π := π) (n := n) (rows := fun j => [sampledRows net C (n j) (ω j i)]) (k := pace N N.inverseRates π)
      (fun q => hdev (⟨i, hi⟩, q))
    have near : ∀ {ε : ℝ}, 0 < ε → ∀ {f : ℕ → ℕ → ℝ} {s : ℝ}, (∀ i < K, Tendsto (fun j => f i j / n j) atTop (𝓝 (s / pace N N.inverseRates π))) →
        Likely (Measure.dirac ()) atTop (fun j (_ : Unit) => |(∑ i ∈ Finset.range K, f i j) / n j - s / (pace N N.inverseRates π / K)| < ε) := by
      intro ε hε f s hf
      refine likely_sure.2 ?_
      have h1 := tendsto_finsetSum (Finset.range K) (fun i hi => hf i (Finset.mem_range.1 hi))
      rw [Finset.sum_const, Finset.card_range, nsmul_eq_mul, show (K : ℝ) * (s / pace N N.inverseRates π) = s / (pace N N.inverseRates π / K) by field_simp] at h1
      simp only [← Finset.sum_div] at h1
      have := Metric.tendsto_nhds.1 h1 ε hε
      simpa only [Real.dist_eq] using this
    simp only [pooledRows, List.map_eq_flatMap]
    refine ⟨grows_of_ge hn, div_pos hp hK', fun {ε} hε {v} hv {L} hL x u => ⟨?_, fun y hy hyx => ?_⟩, likely_sure.2 ?_⟩
    · simp only [rawResidence_flatMap]
      exact near hε (fun i hi => (hcl i hi).1 v hv L hL x u)
    · simp only [rawTransitions_flatMap]
      exact near hε (fun i hi => (hcl i hi).2 v hv L hL x u y hy hyx)
    · filter_upwards [eventually_ge_atTop 1] with j hj
      refine ⟨fun hnil => ?_, fun r hr => ?_⟩
      · exact absurd (List.flatMap_eq_nil_iff.1 hnil 0 (List.mem_range.2 hK)) (List.cons_ne_nil _ _)
      · obtain ⟨i, -, hr⟩ := List.mem_flatMap.1 hr
        rw [List.mem_singleton.1 hr]
        exact hok j (hj.trans (hn j)) i
  · exact (deviation_rare hD hOK C hc hirr hπ q.2 hε).coordinate q.1

omit hD hOK in
theorem RareRate.poly {S : ℕ → (ℕ → ℕ → (Fin N.vars.length → ℝ) × U) → Prop} (h : RareRate (manyLaw N.vars.length P) (fun n : ℕ => Real.log n) S) :
    ∃ γ C : ℝ, 0 < γ ∧ ∀ n : ℕ, 1 ≤ n → manyLaw N.vars.length P {ω | ¬ S n ω} ≤ ENNReal.ofReal (C / (n : ℝ) ^ γ) := by
  obtain ⟨γ, C, hγ, -, h⟩ := h
  refine ⟨γ, C, hγ, fun n hn => (h n hn).trans (le_of_eq ?_)⟩
  rw [Real.rpow_def_of_pos (by exact_mod_cast hn), div_eq_mul_inv, ← Real.exp_neg, mul_comm γ]

/-- The probability that the sampled data let the search improve on the edges of the network, or on some other set, is polynomially small. -/
theorem only_truth_rate (hcl : NoSuffixClash N.vars) (hT : "Time" ∉ N.vars) (hc : N.Conservative) (hpos : N.AllPositive) {c : Nat} (hc2 : 2 ≤ c)
    (hcard : ∀ v ∈ N.vars, N.card v = c) (hns : ∀ v ∈ N.vars, v ∉ N.parents v) (htell : ∀ n ∈ N.vars, ∀ p ∈ N.parents n, Tells N p n)
    (es : List Edge) {τ α : ℝ} (hτ : 0 < τ) (hα : 0 < α) {known : List Edge} (hknown : ∀ e ∈ known, e ∈ N.edges) {K : Nat} (hK : 0 < K) :
    RareRate (manyLaw N.vars.length P) (fun n : ℕ => Real.log n) (fun n ω => OnlyTruth N es c τ α known (pooledRows net C n K ω)) := by
  have hirr := irreducible_of_allPositive hOK hpos
  obtain ⟨π, hπ, -⟩ := sample_stationary hD hOK hc hirr
  have hmat : ∀ n ∈ N.vars, ∀ p ∈ N.parents n, ∀ K : List Label, (∀ q ∈ K, q ∈ N.vars) → p ∉ K → n ∉ K → StationaryMatters N N.inverseRates π n K p :=
    (fun n hn p hp K hK hpK hnK => tells_matters hD hOK hc hirr hπ hn hp (by rintro rfl; exact hns _ hn hp) (htell n hn p hp) hK hpK hnK)
  refine strong_rate hD hOK C hc hirr hπ hK (S := fun _ rows => OnlyTruth N es c τ α known rows) (fun n rows h => ?_)
  exact (likely_sure.1 (typical_only_truth hD hOK h.typical hcl hT hc hpos hc2 hcard hns hπ hmat es hτ hα hknown)).exists

/-- **C224** (score-based).  The probability that importing `K` trajectories sampled with `max_tr = n` and score-based estimation do not return exactly the edges of the network is at
most a constant over some power of `n`; constant and power serve all sufficient limits of the tabu search. -/
theorem network_recovery_rate (hcl : NoSuffixClash N.vars) (hT : "Time" ∉ N.vars) (hc : N.Conservative) (hpos : N.AllPositive) {c : Nat} (hc2 : 2 ≤ c)
    (hcard : ∀ v ∈ N.vars, N.card v = c) (hns : ∀ v ∈ N.vars, v ∉ N.parents v) (htell : ∀ n ∈ N.vars, ∀ p ∈ N.parents n, Tells N p n)
    (es : List Edge) {τ α : ℝ} (hτ : 0 < τ) (hα : 0 < α) {R : List (List Bool)} {known : List Edge}
    (hR : buildRemovable (builtStruct N.vars (N.vars.map N.card) es) N.vars.length known = .ok R) (hknown : ∀ e ∈ known, e ∈ N.edges)
    (hcand : ∀ n ∈ N.vars, ∃ q ∈ N.vars, q ≠ n ∧ (q, n) ∉ known) {K : Nat} (hK : 0 < K) :
    ∃ γ C₀ : ℝ, 0 < γ ∧ ∀ a : SBArgs, a.optimizer = "tabu" → a.maxParents = none → (∀ k, a.tabuLength = some k → (N.vars.length : ℤ) - 1 ≤ k) →
      (∀ k, a.tabuDuration = some k → (N.vars.length : ℤ) - 1 ≤ |k|) → (∀ m, a.patience = some m → (N.vars.length : ℤ) - 1 ≤ m + 1) →
      (N.vars.length - 1) * 2 ^ (N.vars.length - 1) ≤ a.iterations →
      ∀ n : ℕ, 1 ≤ n → manyLaw N.vars.length P {ω | ¬ Recovers N es τ α R a (pooledRows net C n K ω)} ≤ ENNReal.ofReal (C₀ / (n : ℝ) ^ γ) := by
  obtain ⟨γ, C₀, hγ, h⟩ := RareRate.poly (only_truth_rate hD hOK C hcl hT hc hpos hc2 hcard hns htell es hτ hα hknown hK)
  exact ⟨γ, C₀, hγ, fun a hopt hmp htl htd hpat hit n hn => (measure_mono (fun ω (hω : ¬ _) (hs : OnlyTruth N es c τ α known (pooledRows net C n K ω)) =>
    hω (tabu_of_only_truth hOK hc2 hns hτ hα hR hknown hcand hopt hmp htl htd hpat hit hs))).trans (h n hn)⟩

/-- **C224** (hill climbing).  The probability that the data do not let hill climbing succeed with probability `1 - ε` is at most a constant over some power of `n`. -/
theorem hill_recovery_rate {ε : ℝ} (hε : 0 < ε) (hcl : NoSuffixClash N.vars) (hT : "Time" ∉ N.vars) (hc : N.Conservative) (hpos : N.AllPositive) {c : Nat} (hc2 : 2 ≤ c)
    (hcard : ∀ v ∈ N.vars, N.card v = c) (hns : ∀ v ∈ N.vars, v ∉ N.parents v) (htell : ∀ n ∈ N.vars, ∀ p ∈ N.parents n, Tells N p n)
    (es : List Edge) {τ α : ℝ} (hτ : 0 < τ) (hα : 0 < α) {R : List (List Bool)} {known : List Edge}
    (hR : buildRemovable (builtStruct N.vars (N.vars.map N.card) es) N.vars.length known = .ok R) (hknown : ∀ e ∈ known, e ∈ N.edges)
    (hcand : ∀ n ∈ N.vars, ∃ q ∈ N.vars, q ≠ n ∧ (q, n) ∉ known) {K : Nat} (hK : 0 < K) :
    ∃ (T₀ : ℕ) (γ C₀ : ℝ), 0 < γ ∧ ∀ a : SBArgs, SaneArgs a → a.optimizer ≠ "tabu" → a.maxParents = none → a.patience = none → T₀ ≤ a.iterations →
      ∀ {Ω : Type} [MeasurableSpace Ω] (Q : Measure Ω) [IsProbabilityMeasure Q] (X : Label → ℕ → Ω → ℕ),
      (∀ n ∈ N.vars, UniformChoices Q (openParents (builtStruct N.vars (N.vars.map N.card) es) known n).card (X n)) → ∀ drop : Ω → Label → ℕ → ℕ,
      ∀ n : ℕ, 1 ≤ n → manyLaw N.vars.length P {ω | ¬ ProbablyRecovers N es τ α R a Q X drop ε (pooledRows net C n K ω)} ≤ ENNReal.ofReal (C₀ / (n : ℝ) ^ γ) := by
  obtain ⟨γ, C₀, hγ, h⟩ := RareRate.poly (only_truth_rate hD hOK C hcl hT hc hpos hc2 hcard hns htell es hτ hα hknown hK)
  obtain ⟨T₀, hT₀⟩ := hill_of_only_truth (N := N) hε hc2 hns
  exact ⟨T₀, γ, C₀, hγ, fun a hsane hopt hmp hpat hit Ω _ Q _ X hX drop n hn => (measure_mono (fun ω (hω : ¬ _) (hs : OnlyTruth N es c τ α known (pooledRows net C n K ω)) =>
    hω (hT₀ hτ hα hR hknown hcand a hsane hopt hmp hpat hit Q X hX drop hs))).trans (h n hn)⟩

/-- **C224** (constraint-based).  The same for constraint-based estimation at levels that shrink with the length. -/
theorem network_found_rate (hcl : NoSuffixClash N.vars) (hT : "Time" ∉ N.vars) (hc : N.Conservative) (hpos : N.AllPositive) {c : Nat} (hc2 : 2 ≤ c)
    (hcard : ∀ v ∈ N.vars, N.card v = c) (hns : ∀ v ∈ N.vars, v ∉ N.parents v) (htell : ∀ n ∈ N.vars, ∀ p ∈ N.parents n, Tells N p n)
    (es : List Edge) {A B : ℝ → ℝ} (hA : ShrinkingLevel A) (hB : ShrinkingLevel B) (thr : ℝ) {known : List Edge} (hknown : ∀ e ∈ known, e ∈ N.edges) {K : Nat} (hK : 0 < K) :
    ∃ γ C₀ : ℝ, 0 < γ ∧ ∀ n : ℕ, 1 ≤ n → manyLaw N.vars.length P {ω | ¬ FindsEdges N es (scipyParams (A n) (B n) thr) known (pooledRows net C n K ω)}
      ≤ ENNReal.ofReal (C₀ / (n : ℝ) ^ γ) := by
  have hirr := irreducible_of_allPositive hOK hpos
  obtain ⟨π, hπ, -⟩ := sample_stationary hD hOK hc hirr
  have hmat : ∀ n ∈ N.vars, ∀ p ∈ N.parents n, ∀ K : List Label, (∀ q ∈ K, q ∈ N.vars) → p ∉ K → n ∉ K → StationaryMatters N N.inverseRates π n K p :=
    (fun n hn p hp K hK hpK hnK => tells_matters hD hOK hc hirr hπ hn hp (by rintro rfl; exact hns _ hn hp) (htell n hn p hp) hK hpK hnK)
  refine RareRate.poly (strong_rate hD hOK C hc hirr hπ hK (S := fun n rows => FindsEdges N es (scipyParams (A n) (B n) thr) known rows) (fun n rows h => ?_))
  exact (likely_sure.1 (typical_edges_found hD hOK h.typical hcl hT hc hpos hc2 hcard hns hπ hmat es (scipy_levels hA hB thr hc2) hknown)).exists

/-- **C224** (no edge missing).  At fixed levels, the probability that constraint-based estimation misses an edge of the network is exponentially small in the length. -/
theorem edges_kept_rate (hcl : NoSuffixClash N.vars) (hT : "Time" ∉ N.vars) (hc : N.Conservative) (hpos : N.AllPositive) {c : Nat} (hc0 : 0 < c)
    (hcard : ∀ v ∈ N.vars, N.card v = c) (hns : ∀ v ∈ N.vars, v ∉ N.parents v) (htell : ∀ n ∈ N.vars, ∀ p ∈ N.parents n, Tells N p n)
    (es : List Edge) {Q : IndepParams} (hQ : QuantilesTighten Q c) (known : List Edge) {K : Nat} (hK : 0 < K) :
    ∃ γ C₀ : ℝ, 0 < γ ∧ ∀ n : ℕ, 1 ≤ n → manyLaw N.vars.length P {ω | ¬ KeepsEdges N es Q known (pooledRows net C n K ω)} ≤ ENNReal.ofReal (C₀ * Real.exp (-(γ * n))) := by
  have hirr := irreducible_of_allPositive hOK hpos
  obtain ⟨π, hπ, -⟩ := sample_stationary hD hOK hc hirr
  have hmat : ∀ n ∈ N.vars, ∀ p ∈ N.parents n, ∀ K : List Label, (∀ q ∈ K, q ∈ N.vars) → p ∉ K → n ∉ K → StationaryMatters N N.inverseRates π n K p :=
    (fun n hn p hp K hK hpK hnK => tells_matters hD hOK hc hirr hπ hn hp (by rintro rfl; exact hns _ hn hp) (htell n hn p hp) hK hpK hnK)
  obtain ⟨γ, C₀, h1, -, h2⟩ := close_rate hD hOK C hc hirr hπ hK (S := fun _ rows => KeepsEdges N es Q known rows) (fun n rows h =>
    (likely_sure.1 (typical_edges_kept hD hOK h hcl hT hc hpos hc0 hcard hns hπ hmat es hQ known)).exists)
  exact ⟨γ, C₀, h1, h2⟩

end

/-! ## Non-vacuity -/

namespace Demo

/-- C224: from three trajectories of `X → Y`, the tabu search and constraint-based estimation at the levels `1 / √n`. -/
example : ∃ γ C₀ : ℝ, 0 < γ ∧ ∀ n : ℕ, 1 ≤ n → manyLaw 2 (Measure.infinitePi choiceLaw)
      {ω | ¬ Recovers pairCtbn [] 1 1 [[true, true], [true, true]] defaultArgs (pooledRows pairNet someCategorical n 3 ω)} ≤ ENNReal.ofReal (C₀ / (n : ℝ) ^ γ) :=
  by
    obtain ⟨γ, C₀, h1, h2⟩ := network_recovery_rate pair_describes pair_ok someCategorical (by unfold NoSuffixClash; decide) (by decide) pair_conservative pair_allPositive (le_refl 2)
      (fun _ _ => rfl) (by decide) pair_parents_tell [] one_pos one_pos (R := [[true, true], [true, true]]) (known := []) rfl (by simp) (by decide) (K := 3) (by norm_num)
    exact ⟨γ, C₀, h1, h2 defaultArgs rfl rfl (by simp [defaultArgs]) (by simp [defaultArgs]) (by simp [defaultArgs]) (by decide)⟩

/-- C224: with enough iterations hill climbing finds `X → Y` with probability 0.99 unless the data are unfavourable, which is improbable. -/
example : ∃ (T₀ : ℕ) (γ C₀ : ℝ), 0 < γ ∧ ∀ I, T₀ ≤ I → ∃ Q : Measure (ℕ → ℕ), IsProbabilityMeasure Q ∧ ∀ n : ℕ, 1 ≤ n →
    manyLaw 2 (Measure.infinitePi choiceLaw) {ω | ¬ ProbablyRecovers pairCtbn [] 1 1 [[true, true], [true, true]] ⟨none, I, none, none, none, "hill"⟩
      Q (fun _ i ω => ω i) (fun _ _ _ => 0) (1 / 100) (pooledRows pairNet someCategorical n 3 ω)} ≤ ENNReal.ofReal (C₀ / (n : ℝ) ^ γ) := by
  obtain ⟨T₀, γ, C₀, hγ, h⟩ := hill_recovery_rate pair_describes pair_ok someCategorical (ε := 1 / 100) (by norm_num) (by unfold NoSuffixClash; decide) (by decide)
    pair_conservative pair_allPositive (le_refl 2) (fun _ _ => rfl) (by decide) pair_parents_tell [] one_pos one_pos (R := [[true, true], [true, true]]) (known := [])
    rfl (by simp) (by decide) (K := 3) (by norm_num)
  refine ⟨T₀, γ, C₀, hγ, fun I hI => ?_⟩
  obtain ⟨Q, p1, p2⟩ := uniform_choices_exist 1 (by norm_num)
  refine ⟨Q, p1, h ⟨none, I, none, none, none, "hill"⟩ ⟨by simp, by simp, by simp⟩ (show ("hill" : String) ≠ "tabu" by decide) rfl rfl hI Q _ (fun n hn => ?_) _⟩
  rw [(show ∀ n ∈ pairCtbn.vars, (openParents (builtStruct pairCtbn.vars (pairCtbn.vars.map pairCtbn.card) []) [] n).card = 1 by decide) n hn]
  exact p2

example : ∃ γ C₀ : ℝ, 0 < γ ∧ ∀ n : ℕ, 1 ≤ n → manyLaw 2 (Measure.infinitePi choiceLaw)
      {ω | ¬ FindsEdges pairCtbn [] (scipyParams (1 / Real.sqrt n) (1 / Real.sqrt n) 5) [] (pooledRows pairNet someCategorical n 3 ω)} ≤ ENNReal.ofReal (C₀ / (n : ℝ) ^ γ) :=
  network_found_rate pair_describes pair_ok someCategorical (by unfold NoSuffixClash; decide) (by decide) pair_conservative pair_allPositive (le_refl 2) (fun _ _ => rfl)
    (by decide) pair_parents_tell [] root_shrinks root_shrinks 5 (known := []) (by simp) (by norm_num)

/-- C224: with exponentially small probability the edge is missed at fixed levels. -/
example : ∃ γ C₀ : ℝ, 0 < γ ∧ ∀ n : ℕ, 1 ≤ n → manyLaw 2 (Measure.infinitePi choiceLaw)
      {ω | ¬ KeepsEdges pairCtbn [] tightParams [] (pooledRows pairNet someCategorical n 3 ω)} ≤ ENNReal.ofReal (C₀ * Real.exp (-(γ * n))) :=
  edges_kept_rate pair_describes pair_ok someCategorical (by unfold NoSuffixClash; decide) (by decide) pair_conservative pair_allPositive (by norm_num) (fun _ _ => rfl)
    (by decide) pair_parents_tell [] (tight_tightens 2) [] (by norm_num)

end Demo

end

end PyCTBN
