import Verif.Spec.Levels
import Verif.Props.Consistency
import Mathlib.Analysis.SpecialFunctions.Log.Deriv

/-! # The tests at shrinking significance levels, on growing data -/
namespace PyCTBN
open Spec Indep Filter Topology

/-- The quantiles of a sequence of tests on data of the sizes `m k`: as in `LevelsTighten`, with `h k` in place of `log (m k)`. -/
structure LevelsAlong (Q : ℕ → IndepParams) (m h : ℕ → ℝ) (c : Nat) : Prop where
  grow : Tendsto h atTop atTop
  slow : Tendsto (fun k => h k / m k) atTop (𝓝 0)
  tight : ∀ κ : ℝ, 0 < κ → ∀ ε : ℝ, 0 < ε → ∀ᶠ k in atTop, ∀ r1 r2 : ℕ, κ * m k ≤ r1 → κ * m k ≤ r2 →
    ∃ lo hi : ℝ, (Q k).fPpf ((Q k).expTestSign / 2) r1 r2 = .fin lo ∧ (Q k).fPpf (1 - (Q k).expTestSign / 2) r1 r2 = .fin hi ∧
      |lo - 1| < ε ∧ |hi - 1| < ε
  wide : ∀ κ : ℝ, 0 < κ → ∃ η : ℝ, 0 < η ∧ ∀ᶠ k in atTop, ∀ r1 r2 : ℕ, κ * m k ≤ r1 → κ * m k ≤ r2 → κ * r1 ≤ m k →
    ∃ lo hi : ℝ, (Q k).fPpf ((Q k).expTestSign / 2) r1 r2 = .fin lo ∧ (Q k).fPpf (1 - (Q k).expTestSign / 2) r1 r2 = .fin hi ∧
      lo ≤ 1 - η * Real.sqrt (h k / m k) ∧ 1 + η * Real.sqrt (h k / m k) ≤ hi
  chiUp : ∀ κ : ℝ, 0 < κ → ∀ᶠ k in atTop, ∃ z : ℝ, (Q k).chi2Ppf (1 - (Q k).chiTestAlfa) ((c : ℝ) - 1) = .fin z ∧ z < κ * m k
  chiLow : ∃ η : ℝ, 0 < η ∧ ∀ᶠ k in atTop, ∃ z : ℝ, (Q k).chi2Ppf (1 - (Q k).chiTestAlfa) ((c : ℝ) - 1) = .fin z ∧ η * h k < z
  thumb : ∀ κ : ℝ, 0 < κ → ∀ᶠ k in atTop, (Q k).thumbThreshold < κ * m k

theorem Spec.LevelsTighten.along {Q : ℝ → IndepParams} {c : Nat} (hQ : LevelsTighten Q c) {m : ℕ → ℝ} (hm : Tendsto m atTop atTop) :
    LevelsAlong (fun k => Q (m k)) m (fun k => Real.log (m k)) c where
  grow := Real.tendsto_log_atTop.comp hm
  slow := (Real.isLittleO_log_id_atTop.tendsto_div_nhds_zero).comp hm
  tight κ hκ ε hε := hm.eventually (hQ.tight κ hκ ε hε)
  wide κ hκ := by
    obtain ⟨η, hη, h⟩ := hQ.wide κ hκ
    exact ⟨η, hη, hm.eventually h⟩
  chiUp κ hκ := hm.eventually (hQ.chiUp κ hκ)
  chiLow := by
    obtain ⟨η, hη, h⟩ := hQ.chiLow
    exact ⟨η, hη, hm.eventually h⟩
  thumb κ hκ := hm.eventually (hQ.thumb κ hκ)

theorem LevelsAlong.sub {Q : ℕ → IndepParams} {m h : ℕ → ℝ} {c : Nat} (hQ : LevelsAlong Q m h c) {j : ℕ → ℕ} (hj : Tendsto j atTop atTop) :
    LevelsAlong (fun k => Q (j k)) (fun k => m (j k)) (fun k => h (j k)) c where
  grow := hQ.grow.comp hj
  slow := hQ.slow.comp hj
  tight κ hκ ε hε := hj.eventually (hQ.tight κ hκ ε hε)
  wide κ hκ := by
    obtain ⟨η, hη, h⟩ := hQ.wide κ hκ
    exact ⟨η, hη, hj.eventually h⟩
  chiUp κ hκ := hj.eventually (hQ.chiUp κ hκ)
  chiLow := by
    obtain ⟨η, hη, h⟩ := hQ.chiLow
    exact ⟨η, hη, hj.eventually h⟩
  thumb κ hκ := hj.eventually (hQ.thumb κ hκ)

section
variable {Q : ℕ → IndepParams} {c : Nat} {m h : ℕ → ℝ} (hQ : LevelsAlong Q m h c) (hm : Tendsto m atTop atTop)
include hm

theorem grows_of_share {g : ℕ → ℝ} {l : ℝ} (hl : 0 < l) (hg : Tendsto (fun k => g k / m k) atTop (𝓝 l)) : Tendsto g atTop atTop := by
  refine (hg.pos_mul_atTop hl hm).congr' ?_
  filter_upwards [hm.eventually_gt_atTop 0] with k hk
  field_simp

theorem quotient_of_shares {g g' : ℕ → ℝ} {l l' : ℝ} (hl : l' ≠ 0) (h1 : Tendsto (fun k => g k / m k) atTop (𝓝 l))
    (h2 : Tendsto (fun k => g' k / m k) atTop (𝓝 l')) : Tendsto (fun k => g k / g' k) atTop (𝓝 (l / l')) := by
  refine (h1.div h2 hl).congr' ?_
  filter_upwards [hm.eventually_gt_atTop 0] with k hk
  exact div_div_div_cancel_right₀ hk.ne' _ _

theorem proportional {g : ℕ → ℝ} {l : ℝ} (hl : 0 < l) (hg : Tendsto (fun k => g k / m k) atTop (𝓝 l)) :
    ∃ κ : ℝ, 0 < κ ∧ ∀ᶠ k in atTop, κ * m k ≤ g k ∧ κ * g k ≤ m k := by
  refine ⟨min (l / 2) (1 / (2 * l)), lt_min (by positivity) (by positivity), ?_⟩
  filter_upwards [hm.eventually_gt_atTop 0, hg.eventually (lt_mem_nhds (show l / 2 < l by linarith)),
    hg.eventually (gt_mem_nhds (show l < 2 * l by linarith))] with k hk h1 h2
  rw [lt_div_iff₀ hk] at h1
  rw [div_lt_iff₀ hk] at h2
  have hg0 : 0 < g k := by nlinarith
  constructor
  · exact (mul_le_mul_of_nonneg_right (min_le_left _ _) hk.le).trans h1.le
  · refine (mul_le_mul_of_nonneg_right (min_le_right _ _) hg0.le).trans ?_
    rw [one_div, inv_mul_le_iff₀ (by positivity)]
    exact h2.le

include hQ

/-- Different limiting rates of leaving a state are told apart. -/
theorem levels_tell_rates {o o' : ℕ → Stats} {x : Nat} (hx : x < c) {S S' e e' : ℝ} (hS : 0 < S) (hS' : 0 < S') (he : 0 < e) (he' : 0 < e')
    (hne : e / S ≠ e' / S') (ht : Tendsto (fun k => ((o k).time x : ℝ) / m k) atTop (𝓝 S)) (ht' : Tendsto (fun k => ((o' k).time x : ℝ) / m k) atTop (𝓝 S'))
    (hr : Tendsto (fun k => ((o k).count x x : ℝ) / m k) atTop (𝓝 e)) (hr' : Tendsto (fun k => ((o' k).count x x : ℝ) / m k) atTop (𝓝 e')) :
    ∀ᶠ k in atTop, ToldApart (Q k) c (o k) (o' k) := by
  have h : LeavesAtRate o x (e / S) := ⟨grows_of_share hm hS ht, quotient_of_shares hm hS.ne' hr ht⟩
  have h' : LeavesAtRate o' x (e' / S') := ⟨grows_of_share hm hS' ht', quotient_of_shares hm hS'.ne' hr' ht'⟩
  have h1 : 0 < e / S := div_pos he hS
  have h2 : 0 < e' / S' := div_pos he' hS'
  obtain ⟨ρ, hρ⟩ : ∃ ρ, ρ = e / S := ⟨_, rfl⟩
  obtain ⟨ρ', hρ'⟩ : ∃ ρ', ρ' = e' / S' := ⟨_, rfl⟩
  rw [← hρ] at h h1 hne
  rw [← hρ'] at h' h2 hne
  have hd := intensity_diag_tendsto h
  have hd' := intensity_diag_tendsto h'
  have hratio := hd'.div hd (by linarith [h1] : (-ρ) ≠ 0)
  rw [neg_div_neg_eq] at hratio
  have hlim : ρ' / ρ ≠ 1 := by
    intro e
    rw [div_eq_one_iff_eq h1.ne'] at e
    exact hne e.symm
  set ε := |ρ' / ρ - 1| / 2 with hε
  have hεpos : 0 < ε := by
    have : 0 < |ρ' / ρ - 1| := abs_pos.2 (sub_ne_zero.2 hlim)
    positivity
  obtain ⟨κ, hκ, hp⟩ := proportional hm he hr
  obtain ⟨κ', hκ', hp'⟩ := proportional hm he' hr'
  have hN := (hQ.tight (min κ κ') (lt_min hκ hκ') ε hεpos)
  have hrr : ∀ᶠ k in atTop, |((o' k).intensity x x : ℝ) / ((o k).intensity x x : ℝ) - ρ' / ρ| < ε := by
    have := (Metric.tendsto_nhds.1 hratio) ε hεpos
    filter_upwards [this] with k hk
    simpa only [Real.dist_eq, Pi.div_apply] using hk
  have hnz : ∀ᶠ k in atTop, (((o k).intensity x x : ℚ) : ℝ) ≠ 0 := hd.eventually_ne (by linarith)
  filter_upwards [hN, hp, hp', hrr, hnz, hm.eventually_gt_atTop 0] with k kN k1 k2 k3 k4 hk0
  obtain ⟨lo, hi, e1, e2, e3, e4⟩ := kN _ _ ((mul_le_mul_of_nonneg_right (min_le_left _ _) hk0.le).trans k1.1)
    ((mul_le_mul_of_nonneg_right (min_le_right _ _) hk0.le).trans k2.1)
  refine ⟨x, hx, .inl ?_⟩
  unfold FOutside
  rw [e1, e2]
  unfold XR.div
  rw [if_neg k4]
  show _ < lo ∨ hi < _
  rw [abs_lt] at k3 e3 e4
  rcases lt_or_gt_of_ne hlim with hl | hg
  · left
    have : |ρ' / ρ - 1| = 1 - ρ' / ρ := by rw [abs_of_neg (by linarith)]; ring
    rw [this] at hε
    linarith [k3.2, e3.1]
  · right
    have : |ρ' / ρ - 1| = ρ' / ρ - 1 := abs_of_pos (by linarith)
    rw [this] at hε
    linarith [k3.1, e4.2]

/-- Different limiting frequencies of the states gone to are told apart. -/
theorem levels_tell_shares {o o' : ℕ → Stats} {x y : Nat} (hx : x < c) (hy : y < c) (hyx : y ≠ x) {e e' g g' : ℝ} (he : 0 < e) (he' : 0 < e') (hg : 0 < g)
    (hg' : 0 < g') (hne : g / e ≠ g' / e')
    (hr : Tendsto (fun k => ((o k).count x x : ℝ) / m k) atTop (𝓝 e)) (hr' : Tendsto (fun k => ((o' k).count x x : ℝ) / m k) atTop (𝓝 e'))
    (hc : Tendsto (fun k => ((o k).count x y : ℝ) / m k) atTop (𝓝 g)) (hc' : Tendsto (fun k => ((o' k).count x y : ℝ) / m k) atTop (𝓝 g'))
    (hobs : ∀ᶠ k in atTop, ∀ z, z < c → z ≠ x → 0 < (o k).count x z) :
    ∀ᶠ k in atTop, ToldApart (Q k) c (o k) (o' k) := by
  -- the statistic per unit of size tends to something positive
  have hlim : Tendsto (fun k => (((o k).count x x : ℝ) / m k * (((o' k).count x y : ℝ) / m k) - ((o' k).count x x : ℝ) / m k * (((o k).count x y : ℝ) / m k)) ^ 2 /
      (((o k).count x x : ℝ) / m k * (((o' k).count x x : ℝ) / m k) * (((o k).count x y : ℝ) / m k + ((o' k).count x y : ℝ) / m k))) atTop
      (𝓝 ((e * g' - e' * g) ^ 2 / (e * e' * (g + g')))) :=
    (((hr.mul hc').sub (hr'.mul hc)).pow 2).div ((hr.mul hr').mul (hc.add hc')) (by positivity)
  have hpos : 0 < (e * g' - e' * g) ^ 2 / (e * e' * (g + g')) := by
    have : e * g' - e' * g ≠ 0 := by
      intro h0
      apply hne
      rw [div_eq_div_iff he.ne' he'.ne']
      linarith
    positivity
  set L := (e * g' - e' * g) ^ 2 / (e * e' * (g + g')) with hL
  filter_upwards [hlim.eventually (lt_mem_nhds (show L / 2 < L by linarith)), (hQ.chiUp (L / 2) (by positivity)), hm.eventually_gt_atTop 0, hobs,
    (grows_of_share hm he hr).eventually_gt_atTop 0, (grows_of_share hm he' hr').eventually_gt_atTop 0] with k k1 ⟨z, kz, kz2⟩ hk k4 k5 k6
  refine ⟨x, hx, .inr ⟨fun w hw hwx => ⟨by exact_mod_cast k5, by exact_mod_cast k6, by have := k4 w hw hwx; omega⟩, ?_⟩⟩
  rw [kz]
  show z < chiSquare c (o k).count (o' k).count x
  refine lt_of_lt_of_le ?_ (chiSquare_term_le hy hyx)
  refine kz2.trans ?_
  have hcp : (0 : ℝ) < (o k).count x y := by exact_mod_cast k4 y hy hyx
  have e1 : (((o k).count x x : ℝ) / m k * (((o' k).count x y : ℝ) / m k) - ((o' k).count x x : ℝ) / m k * (((o k).count x y : ℝ) / m k)) ^ 2 /
      (((o k).count x x : ℝ) / m k * (((o' k).count x x : ℝ) / m k) * (((o k).count x y : ℝ) / m k + ((o' k).count x y : ℝ) / m k)) * m k =
      ((o k).count x x * ((o' k).count x y : ℝ) - (o' k).count x x * (o k).count x y) ^ 2 / ((o k).count x x * (o' k).count x x * ((o k).count x y + (o' k).count x y)) := by
    have : (0 : ℝ) ≤ (o' k).count x y := by positivity
    field_simp
  rw [← e1]
  exact mul_lt_mul_of_pos_right k1 hk

/-- Data in which both samples follow the same rates, up to fluctuations smaller than `√(s h)`, are not told apart. -/
theorem levels_not_told {o o' : ℕ → Stats} (hc2 : 2 ≤ c) (hE : ∀ k, ExitCounts c (o k).count) (hE' : ∀ k, ExitCounts c (o' k).count)
    {ρ : Nat → Nat → ℝ} (hρ : ∀ x < c, ∀ y < c, y ≠ x → 0 < ρ x y) {S S' : Nat → ℝ} (hS : ∀ x < c, 0 < S x) (hS' : ∀ x < c, 0 < S' x)
    (ht : ∀ x < c, Tendsto (fun k => ((o k).time x : ℝ) / m k) atTop (𝓝 (S x))) (ht' : ∀ x < c, Tendsto (fun k => ((o' k).time x : ℝ) / m k) atTop (𝓝 (S' x)))
    (hdev : ∀ x < c, ∀ y < c, y ≠ x → Tendsto (fun k => (((o k).count x y : ℝ) - ρ x y * (o k).time x) ^ 2 / (m k * h k)) atTop (𝓝 0))
    (hdev' : ∀ x < c, ∀ y < c, y ≠ x → Tendsto (fun k => (((o' k).count x y : ℝ) - ρ x y * (o' k).time x) ^ 2 / (m k * h k)) atTop (𝓝 0)) :
    ∀ᶠ k in atTop, ¬ ToldApart (Q k) c (o k) (o' k) := by
  -- the scale of the fluctuations, per unit of size
  set w : ℕ → ℝ := fun k => Real.sqrt (h k / m k) with hw
  have hlogm : Tendsto (fun k => h k) atTop atTop := hQ.grow
  have hbase : ∀ᶠ k in atTop, 0 < m k ∧ 0 < h k ∧ 0 < w k := by
    filter_upwards [hm.eventually_gt_atTop 1, hQ.grow.eventually_gt_atTop 0] with k hk this
    exact ⟨by linarith, this, Real.sqrt_pos.2 (div_pos this (by linarith))⟩
  have hw2 : ∀ k, 0 < m k → 0 < h k → w k ^ 2 = h k / m k := fun k h1 h2 => Real.sq_sqrt (div_nonneg h2.le h1.le)
  have hw0 : Tendsto w atTop (𝓝 0) := by
    have h1 : Tendsto (fun k => h k / m k) atTop (𝓝 0) := hQ.slow
    have := (Real.continuous_sqrt.tendsto 0).comp h1
    rwa [Real.sqrt_zero] at this
  have hwm : Tendsto (fun k => 1 / (m k * w k)) atTop (𝓝 0) := by
    have h1 : Tendsto (fun k => 1 / (m k * h k)) atTop (𝓝 0) := by
      simp only [one_div]
      exact (hm.atTop_mul_atTop₀ hlogm).inv_tendsto_atTop
    have h2 := (Real.continuous_sqrt.tendsto 0).comp h1
    rw [Real.sqrt_zero] at h2
    refine h2.congr' ?_
    filter_upwards [hbase] with k ⟨a1, a2, a3⟩
    simp only [Function.comp]
    rw [Real.sqrt_eq_iff_mul_self_eq (by positivity) (by positivity)]
    have := hw2 k a1 a2
    rw [div_mul_div_comm, one_mul, show m k * w k * (m k * w k) = m k ^ 2 * w k ^ 2 by ring, this]
    congr 1
    field_simp
  have hsc : ∀ {f : ℕ → ℝ}, Tendsto (fun k => f k ^ 2 / (m k * h k)) atTop (𝓝 0) → Tendsto (fun k => f k / (m k * w k)) atTop (𝓝 0) := by
    intro f hf
    have h2 := (Real.continuous_sqrt.tendsto 0).comp hf
    rw [Real.sqrt_zero] at h2
    refine squeeze_zero_norm' ?_ h2
    filter_upwards [hbase] with k ⟨a1, a2, a3⟩
    rw [Real.norm_eq_abs]
    refine Real.le_sqrt_of_sq_le (le_of_eq ?_)
    rw [sq_abs, div_pow, show (m k * w k) ^ 2 = m k ^ 2 * w k ^ 2 by ring, hw2 k a1 a2]
    congr 1
    field_simp
  -- counts per unit of size
  have hcnt : ∀ (o : ℕ → Stats) (S : Nat → ℝ), (∀ x < c, Tendsto (fun k => ((o k).time x : ℝ) / m k) atTop (𝓝 (S x))) →
      (∀ x < c, ∀ y < c, y ≠ x → Tendsto (fun k => (((o k).count x y : ℝ) - ρ x y * (o k).time x) ^ 2 / (m k * h k)) atTop (𝓝 0)) →
      (∀ k, ExitCounts c (o k).count) → ∀ x < c,
      (∀ y < c, y ≠ x → Tendsto (fun k => (((o k).count x y : ℝ) - ρ x y * (o k).time x) / (m k * w k)) atTop (𝓝 0) ∧
        Tendsto (fun k => ((o k).count x y : ℝ) / m k) atTop (𝓝 (ρ x y * S x))) ∧
      Tendsto (fun k => (((o k).count x x : ℝ) - (∑ y ∈ (Finset.range c).erase x, ρ x y) * (o k).time x) / (m k * w k)) atTop (𝓝 0) ∧
      Tendsto (fun k => ((o k).count x x : ℝ) / m k) atTop (𝓝 ((∑ y ∈ (Finset.range c).erase x, ρ x y) * S x)) := by
    intro o S ht hdev hE x hx
    have hb : ∀ {f : ℕ → ℝ} {r : ℝ}, Tendsto (fun k => (f k - r * (o k).time x) / (m k * w k)) atTop (𝓝 0) → Tendsto (fun k => f k / m k) atTop (𝓝 (r * S x)) := by
      intro f r hf
      have h1 := (hf.mul hw0).add ((ht x hx).const_mul r)
      rw [zero_mul, zero_add] at h1
      refine h1.congr' ?_
      filter_upwards [hbase] with k ⟨a1, a2, a3⟩
      field_simp
      ring
    have hd : ∀ y < c, y ≠ x → Tendsto (fun k => (((o k).count x y : ℝ) - ρ x y * (o k).time x) / (m k * w k)) atTop (𝓝 0) :=
      fun y hy hyx => hsc (hdev x hx y hy hyx)
    have hdx : Tendsto (fun k => (((o k).count x x : ℝ) - (∑ y ∈ (Finset.range c).erase x, ρ x y) * (o k).time x) / (m k * w k)) atTop (𝓝 0) := by
      have := tendsto_finsetSum ((Finset.range c).erase x) (fun y hy => hd y (Finset.mem_range.1 (Finset.mem_of_mem_erase hy)) (Finset.ne_of_mem_erase hy))
      rw [Finset.sum_const_zero] at this
      refine this.congr (fun k => ?_)
      rw [← Finset.sum_div, Finset.sum_sub_distrib, ← Finset.sum_mul, hE k x hx]
      push_cast
      rfl
    exact ⟨fun y hy hyx => ⟨hd y hy hyx, hb (hd y hy hyx)⟩, hdx, hb hdx⟩
  have hR : ∀ x < c, 0 < ∑ y ∈ (Finset.range c).erase x, ρ x y := by
    intro x hx
    refine Finset.sum_pos (fun y hy => hρ x hx y (Finset.mem_range.1 (Finset.mem_of_mem_erase hy)) (Finset.ne_of_mem_erase hy)) ?_
    rcases Nat.eq_zero_or_pos x with rfl | h0
    · exact ⟨1, Finset.mem_erase.2 ⟨one_ne_zero, Finset.mem_range.2 (by omega)⟩⟩
    · exact ⟨0, Finset.mem_erase.2 ⟨by omega, Finset.mem_range.2 (by omega)⟩⟩
  have hone : Tendsto (fun k => 1 / m k) atTop (𝓝 0) := by
    simp only [one_div]
    exact hm.inv_tendsto_atTop
  have hstate : ∀ x < c, ∀ᶠ k in atTop, ¬ FOutside (Q k) (o k).count (o' k).count (o k).intensity (o' k).intensity x ∧
      ¬ ChiExceeds (Q k) c (o k).count (o' k).count x := by
    intro x hx
    obtain ⟨a1, a2, a3⟩ := hcnt o S ht hdev hE x hx
    obtain ⟨b1, b2, b3⟩ := hcnt o' S' ht' hdev' hE' x hx
    set R := ∑ y ∈ (Finset.range c).erase x, ρ x y with hRd
    have hR0 := hR x hx
    have hS0 := hS x hx
    have hS0' := hS' x hx
    refine Filter.Eventually.and ?_ ?_
    · -- the F test
      obtain ⟨κ, hκ, hp⟩ := proportional hm (mul_pos hR0 hS0) a3
      obtain ⟨κ', hκ', hp'⟩ := proportional hm (mul_pos hR0 hS0') b3
      obtain ⟨η, hη, hwide⟩ := hQ.wide (min κ κ') (lt_min hκ hκ')
      -- (F - 1) / w → 0
      have hF : Tendsto (fun k => ((((o' k).count x x - R * (o' k).time x) / (m k * w k) - 1 / (m k * w k)) * ((o k).time x / m k + 1 / m k)
          - (((o k).count x x - R * (o k).time x) / (m k * w k) - 1 / (m k * w k)) * ((o' k).time x / m k + 1 / m k)
          + R * ((o' k).time x / m k - (o k).time x / m k) * (1 / (m k * w k))) /
          (((o k).count x x / m k - 1 / m k) * ((o' k).time x / m k + 1 / m k))) atTop (𝓝 (((0 - 0) * (S x + 0) - (0 - 0) * (S' x + 0) + R * (S' x - S x) * 0) /
            ((R * S x - 0) * (S' x + 0)))) := by
        refine Tendsto.div ((((b2.sub hwm).mul ((ht x hx).add hone)).sub ((a2.sub hwm).mul ((ht' x hx).add hone))).add
          ((((ht' x hx).sub (ht x hx)).const_mul R).mul hwm)) ((a3.sub hone).mul ((ht' x hx).add hone)) ?_
        have : 0 < (R * S x - 0) * (S' x + 0) := by rw [sub_zero, add_zero]; positivity
        exact this.ne'
      rw [show ((0 - 0) * (S x + 0) - (0 - 0) * (S' x + 0) + R * (S' x - S x) * 0) / ((R * S x - 0) * (S' x + 0)) = 0 by ring] at hF
      have hFe := (Metric.tendsto_nhds.1 hF) η hη
      filter_upwards [hbase, hp, hp', hwide, hFe, (grows_of_share hm (mul_pos hR0 hS0) a3).eventually_gt_atTop 1,
        (grows_of_share hm hS0 (ht x hx)).eventually_gt_atTop 0, (grows_of_share hm hS0' (ht' x hx)).eventually_gt_atTop 0]
        with k ⟨c1, c2, c3⟩ k1 k2 k3 k4 k5 k6 k7
      obtain ⟨lo, hi, e1, e2, e3, e4⟩ := k3 _ _ ((mul_le_mul_of_nonneg_right (min_le_left _ _) c1.le).trans k1.1)
        ((mul_le_mul_of_nonneg_right (min_le_right _ _) c1.le).trans k2.1) ((mul_le_mul_of_nonneg_right (min_le_left _ _) (by positivity)).trans k1.2)
      have i1 : ((o k).intensity x x : ℝ) = (1 - (o k).count x x) / ((o k).time x + 1) := by
        unfold Stats.intensity; rw [if_pos rfl]; push_cast; ring
      have i2 : ((o' k).intensity x x : ℝ) = (1 - (o' k).count x x) / ((o' k).time x + 1) := by
        unfold Stats.intensity; rw [if_pos rfl]; push_cast; ring
      have hnz : ((o k).intensity x x : ℝ) ≠ 0 := by
        rw [i1]
        exact (div_neg_of_neg_of_pos (by linarith) (by linarith)).ne
      have hval : |((o' k).intensity x x : ℝ) / ((o k).intensity x x : ℝ) - 1| < η * w k := by
        rw [Real.dist_eq, sub_zero] at k4
        obtain ⟨n1, hn1⟩ : ∃ n : ℝ, n = (o k).count x x := ⟨_, rfl⟩
        obtain ⟨n2, hn2⟩ : ∃ n : ℝ, n = (o' k).count x x := ⟨_, rfl⟩
        obtain ⟨t1, ht1⟩ : ∃ t : ℝ, t = (o k).time x := ⟨_, rfl⟩
        obtain ⟨t2, ht2⟩ : ∃ t : ℝ, t = (o' k).time x := ⟨_, rfl⟩
        rw [← hn1, ← hn2, ← ht1, ← ht2] at k4
        rw [← hn1] at k5
        rw [← ht1] at k6
        rw [← ht2] at k7
        rw [i1, i2, ← hn1, ← hn2, ← ht1, ← ht2]
        have hA : n1 - 1 ≠ 0 := by linarith
        have hA' : 1 - n1 ≠ 0 := by linarith
        have hB : t1 + 1 ≠ 0 := by linarith
        have hC : t2 + 1 ≠ 0 := by linarith
        have e : (1 - n2) / (t2 + 1) / ((1 - n1) / (t1 + 1)) - 1 = (((n2 - R * t2) / (m k * w k) - 1 / (m k * w k)) * (t1 / m k + 1 / m k)
            - ((n1 - R * t1) / (m k * w k) - 1 / (m k * w k)) * (t2 / m k + 1 / m k) + R * (t2 / m k - t1 / m k) * (1 / (m k * w k))) /
            ((n1 / m k - 1 / m k) * (t2 / m k + 1 / m k)) * w k := by
          have hden : (n1 / m k - 1 / m k) * (t2 / m k + 1 / m k) = (n1 - 1) * (t2 + 1) / m k ^ 2 := by field_simp
          have hnum : ((n2 - R * t2) / (m k * w k) - 1 / (m k * w k)) * (t1 / m k + 1 / m k)
            - ((n1 - R * t1) / (m k * w k) - 1 / (m k * w k)) * (t2 / m k + 1 / m k) + R * (t2 / m k - t1 / m k) * (1 / (m k * w k)) =
            ((n2 - 1) * (t1 + 1) - (n1 - 1) * (t2 + 1)) / (m k ^ 2 * w k) := by field_simp; ring
          rw [hden, hnum]
          have hl : (1 - n2) / (t2 + 1) / ((1 - n1) / (t1 + 1)) - 1 = ((n2 - 1) * (t1 + 1) - (n1 - 1) * (t2 + 1)) / ((n1 - 1) * (t2 + 1)) := by
            rw [show (1 - n1) = -(n1 - 1) by ring, show (1 - n2) = -(n2 - 1) by ring]
            field_simp
          rw [hl]
          field_simp
        rw [e, abs_mul, abs_of_pos c3]
        exact mul_lt_mul_of_pos_right k4 c3
      unfold FOutside
      rw [e1, e2]
      unfold XR.div
      rw [if_neg hnz]
      show ¬ (_ < lo ∨ hi < _)
      rw [abs_lt] at hval
      push Not
      constructor <;> linarith [hval.1, hval.2]
    · -- the chi-square test
      obtain ⟨η, hη, hlow⟩ := hQ.chiLow
      have hchi : Tendsto (fun k => ∑ y ∈ (Finset.range c).erase x,
          (R * ((o k).time x / m k * ((((o' k).count x y : ℝ) - ρ x y * (o' k).time x) / (m k * w k)) - (o' k).time x / m k * ((((o k).count x y : ℝ) - ρ x y * (o k).time x) / (m k * w k)))
            + (((o k).count x x : ℝ) - R * (o k).time x) / (m k * w k) * (((o' k).count x y : ℝ) / m k) - (((o' k).count x x : ℝ) - R * (o' k).time x) / (m k * w k) * (((o k).count x y : ℝ) / m k)) ^ 2 /
          (((o k).count x x : ℝ) / m k * (((o' k).count x x : ℝ) / m k) * (((o k).count x y : ℝ) / m k + ((o' k).count x y : ℝ) / m k))) atTop
          (𝓝 (∑ y ∈ (Finset.range c).erase x, (R * (S x * 0 - S' x * 0) + 0 * (ρ x y * S' x) - 0 * (ρ x y * S x)) ^ 2 /
            (R * S x * (R * S' x) * (ρ x y * S x + ρ x y * S' x)))) := by
        refine tendsto_finsetSum _ (fun y hy => ?_)
        have hy' := Finset.mem_range.1 (Finset.mem_of_mem_erase hy)
        have hyx := Finset.ne_of_mem_erase hy
        have hρ0 := hρ x hx y hy' hyx
        refine Tendsto.div ((((((((ht x hx).mul (b1 y hy' hyx).1).sub ((ht' x hx).mul (a1 y hy' hyx).1)).const_mul R).add (a2.mul (b1 y hy' hyx).2)).sub
          (b2.mul (a1 y hy' hyx).2)).pow 2)) ((a3.mul b3).mul ((a1 y hy' hyx).2.add (b1 y hy' hyx).2)) (by positivity)
      have hz : (∑ y ∈ (Finset.range c).erase x, (R * (S x * 0 - S' x * 0) + 0 * (ρ x y * S' x) - 0 * (ρ x y * S x)) ^ 2 /
            (R * S x * (R * S' x) * (ρ x y * S x + ρ x y * S' x))) = 0 := Finset.sum_eq_zero (fun y _ => by ring)
      rw [hz] at hchi
      filter_upwards [hbase, hlow, hchi.eventually (gt_mem_nhds hη)] with k ⟨c1, c2, c3⟩ ⟨z, e1, e2⟩ k3
      rintro ⟨hdef, hlt⟩
      rw [e1] at hlt
      have hlt' : z < chiSquare c (o k).count (o' k).count x := hlt
      have heq : chiSquare c (o k).count (o' k).count x = (∑ y ∈ (Finset.range c).erase x,
          (R * ((o k).time x / m k * ((((o' k).count x y : ℝ) - ρ x y * (o' k).time x) / (m k * w k)) - (o' k).time x / m k * ((((o k).count x y : ℝ) - ρ x y * (o k).time x) / (m k * w k)))
            + (((o k).count x x : ℝ) - R * (o k).time x) / (m k * w k) * (((o' k).count x y : ℝ) / m k) - (((o' k).count x x : ℝ) - R * (o' k).time x) / (m k * w k) * (((o k).count x y : ℝ) / m k)) ^ 2 /
          (((o k).count x x : ℝ) / m k * (((o' k).count x x : ℝ) / m k) * (((o k).count x y : ℝ) / m k + ((o' k).count x y : ℝ) / m k))) * h k := by
        unfold chiSquare
        rw [Finset.sum_mul]
        refine Finset.sum_congr rfl (fun y hy => ?_)
        obtain ⟨d1, d2, d3⟩ := hdef y (Finset.mem_range.1 (Finset.mem_of_mem_erase hy)) (Finset.ne_of_mem_erase hy)
        have d1' : (0 : ℝ) < (o k).count x x := by exact_mod_cast d1
        have d2' : (0 : ℝ) < (o' k).count x x := by exact_mod_cast d2
        have d3' : (0 : ℝ) < (o k).count x y + (o' k).count x y := by exact_mod_cast d3
        obtain ⟨n1, hn1⟩ : ∃ n : ℝ, n = (o k).count x x := ⟨_, rfl⟩
        obtain ⟨n2, hn2⟩ : ∃ n : ℝ, n = (o' k).count x x := ⟨_, rfl⟩
        obtain ⟨g1, hg1⟩ : ∃ n : ℝ, n = (o k).count x y := ⟨_, rfl⟩
        obtain ⟨g2, hg2⟩ : ∃ n : ℝ, n = (o' k).count x y := ⟨_, rfl⟩
        obtain ⟨t1, ht1⟩ : ∃ t : ℝ, t = (o k).time x := ⟨_, rfl⟩
        obtain ⟨t2, ht2⟩ : ∃ t : ℝ, t = (o' k).time x := ⟨_, rfl⟩
        rw [← hn1] at d1'
        rw [← hn2] at d2'
        rw [← hg1, ← hg2] at d3'
        rw [← hn1, ← hn2, ← hg1, ← hg2, ← ht1, ← ht2]
        have hnum : R * (t1 / m k * ((g2 - ρ x y * t2) / (m k * w k)) - t2 / m k * ((g1 - ρ x y * t1) / (m k * w k))) + (n1 - R * t1) / (m k * w k) * (g2 / m k)
            - (n2 - R * t2) / (m k * w k) * (g1 / m k) = (n1 * g2 - n2 * g1) / (m k ^ 2 * w k) := by field_simp; ring
        have hden : n1 / m k * (n2 / m k) * (g1 / m k + g2 / m k) = n1 * n2 * (g1 + g2) / m k ^ 3 := by field_simp
        have hlog : h k = m k * w k ^ 2 := by rw [hw2 k c1 c2]; field_simp
        rw [hnum, hden, hlog]
        field_simp
      rw [heq] at hlt'
      have := mul_lt_mul_of_pos_right k3 c2
      linarith
  have hall := (Filter.eventually_all_finset (Finset.range c)).2 (fun x hx => hstate x (Finset.mem_range.1 hx))
  filter_upwards [hall] with k hk
  rintro ⟨x, hx, h⟩
  have := hk x (Finset.mem_range.2 hx)
  rcases h with h | h
  · exact this.1 h
  · exact this.2 h

/-- Enough data are not too scarce. -/
theorem levels_not_scarce {o : ℕ → Stats} {x : Nat} (hx : x < c) {e : ℝ} (he : 0 < e) (hr : Tendsto (fun k => ((o k).count x x : ℝ) / m k) atTop (𝓝 e)) {thumb : Nat}
    (hth : 2 < c → 0 < thumb) : ∀ᶠ k in atTop, ¬ Scarce (Q k) c (o k).count thumb := by
  by_cases hc : 2 < c
  · have ht := hth hc
    have ht' : (0 : ℝ) < thumb := by exact_mod_cast ht
    obtain ⟨κ, hκ, hp⟩ := proportional hm he hr
    filter_upwards [hp, (hQ.thumb (κ / thumb) (by positivity))] with k ⟨k1, _⟩ k2
    rintro ⟨-, h⟩
    unfold XR.div at h
    rw [if_neg ht'.ne'] at h
    have h' : ((∑ x ∈ Finset.range c, (o k).count x x : ℕ) : ℝ) / thumb < (Q k).thumbThreshold := h
    have h3 : ((o k).count x x : ℝ) ≤ ((∑ x ∈ Finset.range c, (o k).count x x : ℕ) : ℝ) := by
      exact_mod_cast Finset.single_le_sum (f := fun x => (o k).count x x) (fun _ _ => Nat.zero_le _) (Finset.mem_range.2 hx)
    rw [div_lt_iff₀ ht'] at h'
    have h4 : (Q k).thumbThreshold * thumb < κ / thumb * m k * thumb := mul_lt_mul_of_pos_right k2 ht'
    have h5 : κ / thumb * m k * thumb = κ * m k := by field_simp
    linarith
  · exact Filter.Eventually.of_forall (fun k h => hc h.1)

end
end PyCTBN
