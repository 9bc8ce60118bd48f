import Verif.Spec.Consistency
import Verif.Props.CtpcSens
import Mathlib.Topology.Algebra.Order.Field
import Mathlib.Analysis.SpecificLimits.Basic

/-!
# Growing data sets: what the estimates tend to
-/

namespace PyCTBN
open Spec Indep Filter Topology

/-! ## One estimated entry -/

theorem estimate_entries (s : Structure) (g : NetworkGraph) (hg : Reach s g) (t : Trajectory) (ht : DataOK s t) (n : Label) (hn : n ∈ s.labels) (c : Nat)
    (hcn : s.getStatesNumber n = .ok c) (hc : 0 < c) (ps : List Nat) (hps : ps.map Except.ok = (parentsOf g n).map s.getStatesNumber)
    (hex : ExactCards c ps) :
    ∃ sofc, ParamsEst.estimate t g n = .ok sofc ∧ (∀ u, InRangeAssign ps u → ∃ r : Nat, sofc.pCombs[r]? = some u) ∧
      ∀ (r : Nat) (u : List Nat), sofc.pCombs[r]? = some u → ∃ cim : Cim, sofc.cims[r]? = some cim ∧
        ∀ x y, x < c → y < c → entry2 cim.cim x y = some ((observed s t n (parentsOf g n) c u).intensity x y) := by
  obtain ⟨hI, hs⟩ := hg.inv
  have hw : WFStructure s := hs ▸ hI.cs.toWFStructure
  have hls : ∀ x ∈ parentsOf g n, x ∈ s.labels := fun x hx => hs ▸ mem_parentsOf hx
  obtain ⟨sofc, h1, h2, h3⟩ := estFrom_exact hw ht hn hls hcn hc hps hex
  refine ⟨sofc, by rw [estimate_eq_estFrom hg hn t, h1], fun u hu => List.mem_iff_getElem?.1 ((h3 u).2 hu), fun r u hru => ?_⟩
  refine ⟨trueCim s t n c (parentsOf g n) u, by rw [h2, List.getElem?_map, hru]; rfl, fun x y hx hy => ?_⟩
  rw [(trueCim_eq s t n c (parentsOf g n) u).1]
  simp [cimOf, matrixOf, entry2, hx, hy]

/-- **C147** The exact error of estimation.  With residence time `T > 0` in state `x` (while the parents are in states `u`), `M` transitions to `y` and `N`
transitions out of `x`: the estimated rate of going to `y` exceeds `M / T` by `(1 - M/T) / (T + 1)`, and the estimated rate of leaving `x` (minus the
diagonal entry) exceeds `N / T` by `-(1 + N/T) / (T + 1)`. -/
theorem estimation_error (s : Structure) (g : NetworkGraph) (hg : Reach s g) (t : Trajectory) (ht : DataOK s t) (n : Label) (hn : n ∈ s.labels) (c : Nat)
    (hcn : s.getStatesNumber n = .ok c) (hc : 0 < c) (ps : List Nat) (hps : ps.map Except.ok = (parentsOf g n).map s.getStatesNumber)
    (hex : ExactCards c ps) :
    ∃ sofc, ParamsEst.estimate t g n = .ok sofc ∧
      ∀ (r : Nat) (u : List Nat), sofc.pCombs[r]? = some u → ∃ cim : Cim, sofc.cims[r]? = some cim ∧ ∀ x, x < c →
        let T := residence s t n (parentsOf g n) x u
        0 < T →
        (∀ y, y < c → y ≠ x → ∃ q : ℚ, entry2 cim.cim x y = some q ∧
          q - transitions s t n (parentsOf g n) x y u / T = (1 - transitions s t n (parentsOf g n) x y u / T) / (T + 1)) ∧
        ∃ d : ℚ, entry2 cim.cim x x = some d ∧
          -d - (∑ y ∈ (Finset.range c).erase x, transitions s t n (parentsOf g n) x y u : ℕ) / T =
            -((1 + (∑ y ∈ (Finset.range c).erase x, transitions s t n (parentsOf g n) x y u : ℕ) / T) / (T + 1)) := by
  obtain ⟨sofc, h1, -, h2⟩ := estimate_entries s g hg t ht n hn c hcn hc ps hps hex
  refine ⟨sofc, h1, fun r u hru => ?_⟩
  obtain ⟨cim, h3, h4⟩ := h2 r u hru
  refine ⟨cim, h3, fun x hx => ?_⟩
  intro T hT
  have hT1 : T + 1 ≠ 0 := by positivity
  have hT0 : T ≠ 0 := hT.ne'
  refine ⟨fun y hy hne => ⟨_, h4 x y hx hy, ?_⟩, _, h4 x x hx hx, ?_⟩
  · have e1 : (observed s t n (parentsOf g n) c u).count x y = transitions s t n (parentsOf g n) x y u := if_neg hne.symm
    have e2 : (observed s t n (parentsOf g n) c u).time x = T := rfl
    rw [Stats.intensity, if_neg hne.symm, e1, e2]
    field_simp
    ring
  · have e1 : (observed s t n (parentsOf g n) c u).count x x = ∑ y ∈ (Finset.range c).erase x, transitions s t n (parentsOf g n) x y u := if_pos rfl
    have e2 : (observed s t n (parentsOf g n) c u).time x = T := rfl
    rw [Stats.intensity, if_pos rfl, e1, e2]
    field_simp
    ring

/-! ## Limits -/

theorem tendsto_smoothed {M T : ℕ → ℝ} {ρ b : ℝ} (hT : Tendsto T atTop atTop) (hr : Tendsto (fun k => M k / T k) atTop (𝓝 ρ)) :
    Tendsto (fun k => (M k + b) / (T k + 1)) atTop (𝓝 ρ) := by
  have h1 : Tendsto (fun k => 1 / T k) atTop (𝓝 0) := by
    simp only [one_div]
    exact hT.inv_tendsto_atTop
  have h2 : Tendsto (fun k => (M k / T k + b * (1 / T k)) / (1 + 1 / T k)) atTop (𝓝 ((ρ + b * 0) / (1 + 0))) :=
    (hr.add (h1.const_mul b)).div (tendsto_const_nhds.add h1) (by norm_num)
  rw [show (ρ + b * 0) / (1 + 0) = ρ by ring] at h2
  refine h2.congr' ?_
  filter_upwards [hT.eventually_gt_atTop 0] with k hk
  field_simp

theorem intensity_diag_tendsto {o : ℕ → Stats} {x : Nat} {ρ : ℝ} (h : LeavesAtRate o x ρ) :
    Tendsto (fun k => (((o k).intensity x x : ℚ) : ℝ)) atTop (𝓝 (-ρ)) := by
  have h2 := tendsto_smoothed (M := fun k => -((o k).count x x : ℝ)) (b := 1) h.time (ρ := -ρ) (by simpa only [neg_div] using h.rate.neg)
  refine h2.congr (fun k => ?_)
  simp only [Stats.intensity, if_true]
  push_cast
  rfl

/-- **C148** Consistency of the parameters.  For growing data sets in which, while the parents are in states `u`, the time in state `x` grows without bound
and the observed rates of going from `x` to `y` tend to `ρ`, the estimated entries tend to `ρ`; the diagonal entries tend to minus the limit of the observed
rates of leaving `x`. -/
theorem estimates_consistent (s : Structure) (g : NetworkGraph) (hg : Reach s g) (ts : ℕ → Trajectory) (ht : ∀ k, DataOK s (ts k)) (n : Label)
    (hn : n ∈ s.labels) (c : Nat) (hcn : s.getStatesNumber n = .ok c) (hc : 0 < c) (ps : List Nat)
    (hps : ps.map Except.ok = (parentsOf g n).map s.getStatesNumber) (hex : ExactCards c ps) {u : List Nat} (hu : InRangeAssign ps u) {x : Nat} (hx : x < c)
    (hT : Tendsto (fun k => (residence s (ts k) n (parentsOf g n) x u : ℝ)) atTop atTop) :
    (∀ y ρ, y < c → y ≠ x →
      Tendsto (fun k => (transitions s (ts k) n (parentsOf g n) x y u : ℝ) / (residence s (ts k) n (parentsOf g n) x u : ℝ)) atTop (𝓝 ρ) →
      ∃ q : ℕ → ℚ, (∀ k, ∃ (sofc : SetOfCims) (r : Nat) (cim : Cim), ParamsEst.estimate (ts k) g n = .ok sofc ∧ sofc.pCombs[r]? = some u ∧ sofc.cims[r]? = some cim ∧
        entry2 cim.cim x y = some (q k)) ∧ Tendsto (fun k => (q k : ℝ)) atTop (𝓝 ρ)) ∧
    (∀ ρ, Tendsto (fun k => ((∑ y ∈ (Finset.range c).erase x, transitions s (ts k) n (parentsOf g n) x y u : ℕ) : ℝ) /
        (residence s (ts k) n (parentsOf g n) x u : ℝ)) atTop (𝓝 ρ) →
      ∃ d : ℕ → ℚ, (∀ k, ∃ (sofc : SetOfCims) (r : Nat) (cim : Cim), ParamsEst.estimate (ts k) g n = .ok sofc ∧ sofc.pCombs[r]? = some u ∧ sofc.cims[r]? = some cim ∧
        entry2 cim.cim x x = some (d k)) ∧ Tendsto (fun k => (d k : ℝ)) atTop (𝓝 (-ρ))) := by
  have key : ∀ y, y < c → ∀ k, ∃ (sofc : SetOfCims) (r : Nat) (cim : Cim), ParamsEst.estimate (ts k) g n = .ok sofc ∧ sofc.pCombs[r]? = some u ∧ sofc.cims[r]? = some cim ∧
        entry2 cim.cim x y = some ((observed s (ts k) n (parentsOf g n) c u).intensity x y) := by
    intro y hy k
    obtain ⟨sofc, h1, h2, h3⟩ := estimate_entries s g hg (ts k) (ht k) n hn c hcn hc ps hps hex
    obtain ⟨r, hr⟩ := h2 u hu
    obtain ⟨cim, h4, h5⟩ := h3 r u hr
    exact ⟨sofc, r, cim, h1, hr, h4, h5 x y hx hy⟩
  constructor
  · intro y ρ hy hne hr
    refine ⟨_, key y hy, ?_⟩
    refine (tendsto_smoothed (b := 1) hT hr).congr (fun k => ?_)
    simp only [Stats.intensity, observed, if_neg hne.symm]
    push_cast
    rfl
  · intro ρ hr
    refine ⟨_, key x hx, ?_⟩
    refine intensity_diag_tendsto (o := fun k => observed s (ts k) n (parentsOf g n) c u) ⟨hT, ?_⟩
    refine hr.congr (fun k => ?_)
    simp only [observed, if_true]

/-! ## Tests -/

theorem count_tendsto {o : ℕ → Stats} {x : Nat} {ρ : ℝ} (hρ : 0 < ρ) (h : LeavesAtRate o x ρ) :
    Tendsto (fun k => ((o k).count x x : ℝ)) atTop atTop := by
  have := h.rate.pos_mul_atTop hρ h.time
  refine this.congr' ?_
  filter_upwards [h.time.eventually_gt_atTop 0] with k hk
  field_simp

theorem told_apart_by_rate {P : IndepParams} {c : Nat} (hP : QuantilesTighten P c) {o o' : ℕ → Stats} {x : Nat} (hx : x < c) {ρ ρ' : ℝ} (h1 : 0 < ρ)
    (h2 : 0 < ρ') (hne : ρ ≠ ρ') (h : LeavesAtRate o x ρ) (h' : LeavesAtRate o' x ρ') : ∀ᶠ k in atTop, ToldApart P c (o k) (o' k) := by
  have hd := intensity_diag_tendsto h
  have hd' := intensity_diag_tendsto h'
  have hratio := hd'.div hd (by linarith [h1] : (-ρ) ≠ 0)
  rw [neg_div_neg_eq] at hratio
  have hlim : ρ' / ρ ≠ 1 := by
    intro e
    rw [div_eq_one_iff_eq h1.ne'] at e
    exact hne e.symm
  set ε := |ρ' / ρ - 1| / 2 with hε
  have hεpos : 0 < ε := by
    have : 0 < |ρ' / ρ - 1| := abs_pos.2 (sub_ne_zero.2 hlim)
    positivity
  obtain ⟨N, hN⟩ := hP.f ε hεpos
  have hc1 := (count_tendsto h1 h).eventually_ge_atTop (N : ℝ)
  have hc2 := (count_tendsto h2 h').eventually_ge_atTop (N : ℝ)
  have hr : ∀ᶠ k in atTop, |((o' k).intensity x x : ℝ) / ((o k).intensity x x : ℝ) - ρ' / ρ| < ε := by
    have := (Metric.tendsto_nhds.1 hratio) ε hεpos
    filter_upwards [this] with k hk
    simpa only [Real.dist_eq, Pi.div_apply] using hk
  have hnz : ∀ᶠ k in atTop, (((o k).intensity x x : ℚ) : ℝ) ≠ 0 := hd.eventually_ne (by linarith)
  filter_upwards [hc1, hc2, hr, hnz] with k k1 k2 k3 k4
  obtain ⟨lo, hi, e1, e2, e3, e4⟩ := hN _ _ (by exact_mod_cast k1) (by exact_mod_cast k2)
  refine ⟨x, hx, .inl ?_⟩
  unfold FOutside
  rw [e1, e2]
  unfold XR.div
  rw [if_neg k4]
  show _ < lo ∨ hi < _
  rw [abs_lt] at k3 e3 e4
  rcases lt_or_gt_of_ne hlim with hl | hg
  · left
    have : |ρ' / ρ - 1| = 1 - ρ' / ρ := by rw [abs_of_neg (by linarith)]; ring
    rw [this] at hε
    linarith [k3.2, e3.1]
  · right
    have : |ρ' / ρ - 1| = ρ' / ρ - 1 := abs_of_pos (by linarith)
    rw [this] at hε
    linarith [k3.1, e4.2]

theorem chiSquare_term_le {c : Nat} {m m' : Nat → Nat → Nat} {x y : Nat} (hy : y < c) (hne : y ≠ x) :
    ((m x x : ℝ) * m' x y - m' x x * m x y) ^ 2 / (m x x * m' x x * (m x y + m' x y)) ≤ chiSquare c m m' x := by
  unfold chiSquare
  refine Finset.single_le_sum (f := fun y => ((m x x : ℝ) * m' x y - m' x x * m x y) ^ 2 / (m x x * m' x x * (m x y + m' x y))) (fun i _ => ?_)
    (Finset.mem_erase.2 ⟨hne, Finset.mem_range.2 hy⟩)
  positivity

theorem told_apart_by_share {P : IndepParams} {c : Nat} (hP : QuantilesTighten P c) {o o' : ℕ → Stats} {x y : Nat} (hx : x < c) (hy : y < c) (hyx : y ≠ x)
    {θ θ' : ℝ} (hne : θ ≠ θ') (h : GoesToShare o x y θ) (h' : GoesToShare o' x y θ') (hle : ∀ k, (o k).count x y ≤ (o k).count x x)
    (hle' : ∀ k, (o' k).count x y ≤ (o' k).count x x) (hobs : ∀ᶠ k in atTop, ∀ z, z < c → z ≠ x → 0 < (o k).count x z) :
    ∀ᶠ k in atTop, ToldApart P c (o k) (o' k) := by
  obtain ⟨z, hz⟩ := hP.chi
  have hdiff : Tendsto (fun k => (((o' k).count x y : ℝ) / (o' k).count x x - ((o k).count x y : ℝ) / (o k).count x x) ^ 2) atTop (𝓝 ((θ' - θ) ^ 2)) :=
    (h'.share.sub h.share).pow 2
  have hpos : 0 < (θ' - θ) ^ 2 := by
    have : θ' - θ ≠ 0 := sub_ne_zero.2 hne.symm
    positivity
  have hδ : ∀ᶠ k in atTop, (θ' - θ) ^ 2 / 2 <
      (((o' k).count x y : ℝ) / (o' k).count x x - ((o k).count x y : ℝ) / (o k).count x x) ^ 2 :=
    hdiff.eventually (lt_mem_nhds (by linarith))
  have hbig := h.exits.eventually_gt_atTop (max 1 (4 * |z| / (θ' - θ) ^ 2))
  have hbig' := h'.exits.eventually_gt_atTop (max 1 (4 * |z| / (θ' - θ) ^ 2))
  filter_upwards [hδ, hbig, hbig', hobs] with k k1 k2 k3 k4
  obtain ⟨r1, r2, hr1, hr2⟩ : ∃ r1 r2 : ℝ, r1 = (o k).count x x ∧ r2 = (o' k).count x x := ⟨_, _, rfl, rfl⟩
  obtain ⟨m1, m2, hm1, hm2⟩ : ∃ m1 m2 : ℝ, m1 = (o k).count x y ∧ m2 = (o' k).count x y := ⟨_, _, rfl, rfl⟩
  have hp1 : 0 < r1 := by rw [hr1]; linarith [le_max_left (1 : ℝ) (4 * |z| / (θ' - θ) ^ 2)]
  have hp2 : 0 < r2 := by rw [hr2]; linarith [le_max_left (1 : ℝ) (4 * |z| / (θ' - θ) ^ 2)]
  refine ⟨x, hx, .inr ⟨fun w hw hwx => ⟨?_, ?_, ?_⟩, ?_⟩⟩
  · rw [hr1] at hp1; exact_mod_cast hp1
  · rw [hr2] at hp2; exact_mod_cast hp2
  · have := k4 w hw hwx
    omega
  · rw [hz]
    show z < chiSquare c (o k).count (o' k).count x
    refine lt_of_lt_of_le ?_ (chiSquare_term_le hy hyx)
    rw [← hr1, ← hr2, ← hm1, ← hm2]
    rw [← hr1, ← hr2, ← hm1, ← hm2] at k1
    have hm1le : m1 ≤ r1 := by rw [hm1, hr1]; exact_mod_cast hle k
    have hm2le : m2 ≤ r2 := by rw [hm2, hr2]; exact_mod_cast hle' k
    have hm1p : 0 < m1 := by rw [hm1]; exact_mod_cast k4 y hy hyx
    have hm2p : 0 ≤ m2 := by rw [hm2]; positivity
    have e : (r1 * m2 - r2 * m1) ^ 2 / (r1 * r2 * (m1 + m2)) = r1 * r2 / (m1 + m2) * (m2 / r2 - m1 / r1) ^ 2 := by
      field_simp
    rw [e]
    -- the first factor is at least half of the smaller number of exits
    have hB : 4 * |z| / (θ' - θ) ^ 2 < r1 := by rw [hr1]; exact lt_of_le_of_lt (le_max_right _ _) k2
    have hB' : 4 * |z| / (θ' - θ) ^ 2 < r2 := by rw [hr2]; exact lt_of_le_of_lt (le_max_right _ _) k3
    obtain ⟨B, hBdef⟩ : ∃ B, B = 4 * |z| / (θ' - θ) ^ 2 := ⟨_, rfl⟩
    rw [← hBdef] at hB hB'
    have hB0 : 0 ≤ B := by rw [hBdef]; positivity
    have hfac : B / 2 ≤ r1 * r2 / (m1 + m2) := by
      rw [div_le_div_iff₀ (by norm_num) (by linarith)]
      nlinarith [mul_le_mul hB.le hB'.le hB0 hp1.le, mul_nonneg hB0 (sub_nonneg.2 hm1le), mul_nonneg hB0 (sub_nonneg.2 hm2le),
        mul_pos hp1 hp2, mul_le_mul_of_nonneg_right hB.le hp2.le, mul_le_mul_of_nonneg_right hB'.le hp1.le]
    have hz2 : |z| = B / 2 * ((θ' - θ) ^ 2 / 2) := by
      rw [hBdef]; field_simp; norm_num
    have hBq : 0 < r1 * r2 / (m1 + m2) := by positivity
    calc z ≤ |z| := le_abs_self z
      _ = B / 2 * ((θ' - θ) ^ 2 / 2) := hz2
      _ ≤ r1 * r2 / (m1 + m2) * ((θ' - θ) ^ 2 / 2) := mul_le_mul_of_nonneg_right hfac (by positivity)
      _ < r1 * r2 / (m1 + m2) * (m2 / r2 - m1 / r1) ^ 2 := mul_lt_mul_of_pos_left k1 hBq

theorem ordered_congr {s : Structure} {K K' : List Label} (h : ∀ l ∈ s.labels, l ∈ K ↔ l ∈ K') : ordered s K = ordered s K' := by
  unfold ordered
  apply List.filter_congr
  intro l hl
  simp only [h l hl]

theorem count_le_exits (s : Structure) (t : Trajectory) (child : Label) {c : Nat} (K : List Label) (a : Label → Nat) {x y : Nat} (hy : y < c) (hne : y ≠ x) :
    (given s t child c K a).count x y ≤ (given s t child c K a).count x x := by
  simp only [given, observed, if_true, if_neg hne.symm]
  exact Finset.single_le_sum (f := fun z => transitions s t child (ordered s K) x z ((ordered s K).map a)) (fun _ _ => Nat.zero_le _)
    (Finset.mem_erase.2 ⟨hne, Finset.mem_range.2 hy⟩)

theorem eventually_told_apart {s : Structure} {ts : ℕ → Trajectory} {P : IndepParams} {c : Nat} (hP : QuantilesTighten P c) {child : Label}
    {K K' : List Label} (h : BehavesDifferently s ts child c K K') :
    ∀ᶠ k in atTop, ∃ a : Label → Nat, (∀ q, a q < c) ∧ ToldApart P c (given s (ts k) child c K a) (given s (ts k) child c K' a) := by
  obtain ⟨a, ha, x, hx, h | h⟩ := h
  · obtain ⟨ρ, ρ', h1, h2, h3, h4, h5⟩ := h
    filter_upwards [told_apart_by_rate hP hx h1 h2 h3 h4 h5] with k hk
    exact ⟨a, ha, hk⟩
  · obtain ⟨y, hy, hne, θ, θ', h1, h2, h3, h4⟩ := h
    filter_upwards [told_apart_by_share hP hx hy hne h1 h2 h3 (fun k => count_le_exits s _ child K a hy hne)
      (fun k => count_le_exits s _ child K' a hy hne) h4] with k hk
    exact ⟨a, ha, hk⟩

/-- **C149** Enough data reveal every true parent.  For growing data sets in which, whatever other variables are taken into account, `child` in the long
run behaves differently depending on `p`: from some point on, constraint-based estimation always reports the edge from `p` to `child`, whatever the prior
knowledge. -/
theorem true_parents_eventually_found {s : Structure} {ts : ℕ → Trajectory} {P : IndepParams} {c : Nat}
    (hR : ∀ k, UniformRun ⟨s, s.total, ts k, independenceTest P⟩ P c) (hP : QuantilesTighten P c) {p child : Label} (hp : p ∈ s.labels)
    (hc : child ∈ s.labels) (hne : p ≠ child)
    (hdep : ∀ S : List Label, (∀ q ∈ S, q ∈ s.labels) → p ∉ S → child ∉ S → BehavesDifferently s ts child c S (p :: S)) :
    ∀ᶠ k in atTop, ∀ (m : List (List Bool)) (es : List Edge),
      (((⟨s, s.total, ts k, independenceTest P⟩ : CBEnv).ctpcSequential ⟨[], m⟩).1 = .ok es → (p, child) ∈ es) ∧
      ∀ order : List Label, order.Perm s.labels →
        ((⟨s, s.total, ts k, independenceTest P⟩ : CBEnv).ctpcParallel ⟨[], m⟩ order).1 = .ok es → (p, child) ∈ es := by
  have hw : WFStructure s := (hR 0).wf
  have key : ∀ᶠ k in atTop, ∀ S ∈ s.labels.sublists.toFinset, p ∉ S → child ∉ S →
      ∃ a : Label → Nat, (∀ q, a q < c) ∧ ToldApart P c (given s (ts k) child c S a) (given s (ts k) child c (p :: S) a) := by
    rw [Filter.eventually_all_finset]
    intro S hS
    by_cases h1 : p ∈ S
    · exact Filter.Eventually.of_forall (fun _ h => absurd h1 h)
    by_cases h2 : child ∈ S
    · exact Filter.Eventually.of_forall (fun _ _ h => absurd h2 h)
    have hsub : ∀ q ∈ S, q ∈ s.labels := fun q hq => (List.mem_sublists.1 (List.mem_toFinset.1 hS)).subset hq
    filter_upwards [eventually_told_apart hP (hdep S hsub h1 h2)] with k hk _ _
    exact hk
  filter_upwards [key] with k hk m es
  have hseq : ((⟨s, s.total, ts k, independenceTest P⟩ : CBEnv).ctpcSequential ⟨[], m⟩).1 = .ok es → (p, child) ∈ es := ?_
  · refine ⟨hseq, fun order ho he => hseq ?_⟩
    rw [← parallel_equals_sequential (E := ⟨s, s.total, ts k, independenceTest P⟩) hw (hR k).indexes m order ho]
    exact he
  intro hes
  by_contra hout
  obtain ⟨-, c', S, hcs, h1, h2, h3, hv⟩ := dropped_only_on_evidence hw (hR k).indexes hes hp hc hne hout
  rw [uniform_card hw (hR k).cards hc] at hcs
  cases hcs
  have hm : ∀ l ∈ ordered s S, l ∈ s.labels ∧ l ∈ S := fun l hl => by
    unfold ordered at hl
    simpa using List.mem_filter.1 hl
  obtain ⟨a, ha, hT⟩ := hk (ordered s S) (List.mem_toFinset.2 (List.mem_sublists.2 List.filter_sublist)) (fun h => h1 (hm p h).2)
    (fun h => h2 (hm child h).2)
  have hmem : ∀ l ∈ s.labels, l ∈ ordered s S ↔ l ∈ S := fun l hl => ⟨fun h => (hm l h).2, fun h => by
    unfold ordered
    exact List.mem_filter.2 ⟨hl, by simpa using h⟩⟩
  have e1 : given s (ts k) child c (ordered s S) a = given s (ts k) child c S a := by
    unfold given
    rw [ordered_congr hmem]
  have e2 : given s (ts k) child c (p :: ordered s S) a = given s (ts k) child c (p :: S) a := by
    unfold given
    rw [ordered_congr (K := p :: ordered s S) (K' := p :: S) (fun l hl => by rw [List.mem_cons, List.mem_cons, hmem l hl])]
  rw [e1, e2] at hT
  exact ((complete_test_accepts_iff (hR k) ⟨hw, hp, hc, h3, hne, h1, h2⟩).1 hv a ha).2 hT

end PyCTBN
