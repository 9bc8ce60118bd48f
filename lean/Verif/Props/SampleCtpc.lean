import Verif.Props.SampleRecovery
import Verif.Props.Consistency
import Verif.Props.ConsistencyDemo

/-!
# Constraint-based estimation keeps every true parent on long sampled trajectories (C197, C198)
-/

open MeasureTheory ProbabilityTheory Filter
open scoped ENNReal Topology

namespace PyCTBN
open Spec JumpPaths Indep

noncomputable section

/-- Times and counts per unit of size are close to `S` and `μ`. -/
def StatsCloseTo (s : Structure) (c : Nat) (S : Label → List Label → Nat → List Nat → ℝ) (μ : Label → List Label → Nat → Nat → List Nat → ℝ) (N ε : ℝ) (t : Trajectory) : Prop :=
  ∀ n ∈ s.labels, ∀ L ∈ s.labels.sublists, ∀ u ∈ assignments (L.map (fun _ => c)), ∀ x < c,
    |(residence s t n L x u : ℝ) / N - S n L x u| < ε ∧ ∀ y < c, y ≠ x → |(transitions s t n L x y u : ℝ) / N - μ n L x y u| < ε

/-- If times, counts and their limits are positive and the limits depend on `p`, then large data close enough to the limits keep `p`. -/
theorem kept_if_close {s : Structure} {P : IndepParams} {c : Nat} (hP : QuantilesTighten P c) {p n : Label} (hp : p ∈ s.labels) (hn : n ∈ s.labels) (hne : p ≠ n)
    {S : Label → List Label → Nat → List Nat → ℝ} {μ : Label → List Label → Nat → Nat → List Nat → ℝ}
    (hS : ∀ L ∈ s.labels.sublists, n ∉ L → ∀ f : Label → Nat, (∀ q, f q < c) → ∀ x < c, 0 < S n L x (L.map f))
    (hμ : ∀ L ∈ s.labels.sublists, n ∉ L → ∀ f : Label → Nat, (∀ q, f q < c) → ∀ x < c, ∀ y < c, y ≠ x → 0 < μ n L x y (L.map f))
    (hmat : ∀ K : List Label, (∀ q ∈ K, q ∈ s.labels) → p ∉ K → n ∉ K → ∃ f : Label → Nat, (∀ q, f q < c) ∧ ∃ x y, x < c ∧ y < c ∧ y ≠ x ∧
      μ n (ordered s K) x y ((ordered s K).map f) / S n (ordered s K) x ((ordered s K).map f) ≠
        μ n (ordered s (p :: K)) x y ((ordered s (p :: K)).map f) / S n (ordered s (p :: K)) x ((ordered s (p :: K)).map f)) :
    ∃ ε > 0, ∃ m₀ : ℝ, ∀ m, m₀ ≤ m → ∀ t, UniformRun ⟨s, s.total, t, independenceTest P⟩ P c → StatsCloseTo s c S μ m ε t →
      ∀ (M : List (List Bool)) (es : List Edge), ((⟨s, s.total, t, independenceTest P⟩ : CBEnv).ctpcSequential ⟨[], M⟩).1 = .ok es → (p, n) ∈ es := by
  by_contra hcon
  push Not at hcon
  choose m hm ts hU hclose M es h hout using fun k : ℕ => hcon (1 / ((k : ℝ) + 1)) (by positivity) k
  have hN : Tendsto (fun k => m k) atTop atTop := tendsto_atTop_mono hm tendsto_natCast_atTop_atTop
  have hε : Tendsto (fun k : ℕ => 1 / ((k : ℝ) + 1)) atTop (𝓝 0) := tendsto_one_div_add_atTop_nhds_zero_nat
  have hord : ∀ K, ordered s K ∈ s.labels.sublists := fun K => List.mem_sublists.2 List.filter_sublist
  have hnot : ∀ K, n ∉ K → n ∉ ordered s K := fun K hK hh => hK (by
    unfold ordered at hh
    simpa using (List.mem_filter.1 hh).2)
  have htime : ∀ K, ∀ f : Label → Nat, (∀ q, f q < c) → ∀ x < c,
      Tendsto (fun k => ((given s (ts k) n c K f).time x : ℝ) / m k) atTop (𝓝 (S n (ordered s K) x ((ordered s K).map f))) := by
    intro K f hf x hx
    refine tendsto_iff_dist_tendsto_zero.2 (squeeze_zero (fun _ => dist_nonneg) (fun k => ?_) hε)
    rw [Real.dist_eq]
    exact (hclose k n hn _ (hord _) _ (lt_assignments hf) x hx).1.le
  have hcount : ∀ K, ∀ f : Label → Nat, (∀ q, f q < c) → ∀ x < c, ∀ y < c, y ≠ x →
      Tendsto (fun k => ((given s (ts k) n c K f).count x y : ℝ) / m k) atTop (𝓝 (μ n (ordered s K) x y ((ordered s K).map f))) := by
    intro K f hf x hx y hy hyx
    refine tendsto_iff_dist_tendsto_zero.2 (squeeze_zero (fun _ => dist_nonneg) (fun k => ?_) hε)
    rw [Real.dist_eq]
    have := ((hclose k n hn _ (hord K) _ (lt_assignments hf) x hx).2 y hy hyx).le
    rwa [show (given s (ts k) n c K f).count x y = transitions s (ts k) n (ordered s K) x y ((ordered s K).map f) from if_neg hyx.symm]
  let E : List Label → (Label → Nat) → Nat → ℝ := fun K f x => ∑ z ∈ (Finset.range c).erase x, μ n (ordered s K) x z ((ordered s K).map f)
  have hexit : ∀ K, ∀ f : Label → Nat, (∀ q, f q < c) → ∀ x < c, Tendsto (fun k => ((given s (ts k) n c K f).count x x : ℝ) / m k) atTop (𝓝 (E K f x)) := by
    intro K f hf x hx
    have := tendsto_finsetSum ((Finset.range c).erase x) (fun z hz => hcount K f hf x hx z (Finset.mem_range.1 (Finset.mem_of_mem_erase hz)) (Finset.ne_of_mem_erase hz))
    refine this.congr (fun k => ?_)
    rw [← Finset.sum_div]
    congr 1
    have e : (given s (ts k) n c K f).count x x = ∑ z ∈ (Finset.range c).erase x, (given s (ts k) n c K f).count x z := by
      unfold given observed
      simp only [if_true]
      refine Finset.sum_congr rfl (fun z hz => ?_)
      rw [if_neg (Finset.ne_of_mem_erase hz).symm]
    rw [e]
    push_cast
    rfl
  have hgrow : ∀ {g : ℕ → ℝ} {l : ℝ}, 0 < l → Tendsto (fun k => g k / m k) atTop (𝓝 l) → Tendsto g atTop atTop := by
    intro g l hl hg
    refine (hg.pos_mul_atTop hl hN).congr' ?_
    filter_upwards [hN.eventually_gt_atTop 0] with k hk
    field_simp
  have hquot : ∀ {g g' : ℕ → ℝ} {l l' : ℝ}, 0 < l' → Tendsto (fun k => g k / m k) atTop (𝓝 l) → Tendsto (fun k => g' k / m k) atTop (𝓝 l') →
      Tendsto (fun k => g k / g' k) atTop (𝓝 (l / l')) := by
    intro g g' l l' hl h1 h2
    refine (h1.div h2 hl.ne').congr' ?_
    filter_upwards [hN.eventually_gt_atTop 0] with k hk
    exact div_div_div_cancel_right₀ hk.ne' _ _
  have hEpos : ∀ K, n ∉ K → ∀ f : Label → Nat, (∀ q, f q < c) → ∀ x < c, ∀ y < c, y ≠ x → 0 < E K f x := by
    intro K hK f hf x hx y hy hyx
    exact Finset.sum_pos (fun z hz => hμ _ (hord K) (hnot K hK) f hf x hx z (Finset.mem_range.1 (Finset.mem_of_mem_erase hz)) (Finset.ne_of_mem_erase hz))
      ⟨y, Finset.mem_erase.2 ⟨hyx, Finset.mem_range.2 hy⟩⟩
  have hleave : ∀ K, n ∉ K → ∀ f : Label → Nat, (∀ q, f q < c) → ∀ x < c,
      LeavesAtRate (fun k => given s (ts k) n c K f) x (E K f x / S n (ordered s K) x ((ordered s K).map f)) := fun K hK f hf x hx =>
    ⟨hgrow (hS _ (hord K) (hnot K hK) f hf x hx) (htime K f hf x hx), hquot (hS _ (hord K) (hnot K hK) f hf x hx) (hexit K f hf x hx) (htime K f hf x hx)⟩
  have hev := true_parents_eventually_found (ts := ts) hU hP hp hn hne (fun K hK hpK hnK => by
    obtain ⟨f, hf, x, y, hx, hy, hyx, hd⟩ := hmat K hK hpK hnK
    have hnK' : n ∉ p :: K := by
      simp only [List.mem_cons, not_or]
      exact ⟨hne.symm, hnK⟩
    have s1 := hS _ (hord K) (hnot K hnK) f hf x hx
    have s2 := hS _ (hord _) (hnot _ hnK') f hf x hx
    have e1 := hEpos K hnK f hf x hx y hy hyx
    have e2 := hEpos _ hnK' f hf x hx y hy hyx
    refine ⟨f, hf, x, hx, ?_⟩
    by_cases hr : E K f x / S n (ordered s K) x ((ordered s K).map f) = E (p :: K) f x / S n (ordered s (p :: K)) x ((ordered s (p :: K)).map f)
    · refine .inr ⟨y, hy, hyx, _, _, fun hθ => hd ?_, ⟨hgrow e1 (hexit K f hf x hx), hquot e1 (hcount K f hf x hx y hy hyx) (hexit K f hf x hx)⟩,
        ⟨hgrow e2 (hexit _ f hf x hx), hquot e2 (hcount _ f hf x hx y hy hyx) (hexit _ f hf x hx)⟩, ?_⟩
      · calc μ n (ordered s K) x y ((ordered s K).map f) / S n (ordered s K) x ((ordered s K).map f)
            = μ n (ordered s K) x y ((ordered s K).map f) / E K f x * (E K f x / S n (ordered s K) x ((ordered s K).map f)) := by field_simp
          _ = _ := by
            rw [hθ, hr]
            field_simp
      · have hall : ∀ z ∈ (Finset.range c).erase x, ∀ᶠ k in atTop, 0 < (given s (ts k) n c K f).count x z := by
          intro z hz
          have hz' := Finset.mem_range.1 (Finset.mem_of_mem_erase hz)
          have hzx := Finset.ne_of_mem_erase hz
          filter_upwards [(hgrow (hμ _ (hord K) (hnot K hnK) f hf x hx z hz' hzx) (hcount K f hf x hx z hz' hzx)).eventually_gt_atTop 0] with k hk
          exact_mod_cast hk
        filter_upwards [(Filter.eventually_all_finset _).2 hall] with k hk z hz hzx
        exact hk z (Finset.mem_erase.2 ⟨hzx, Finset.mem_range.2 hz⟩)
    · exact .inl ⟨_, _, div_pos e1 s1, div_pos e2 s2, hr, hleave K hnK f hf x hx, hleave _ hnK' f hf x hx⟩)
  obtain ⟨k, hk⟩ := hev.exists
  exact hout k ((hk (M k) (es k)).1 (h k))

/-- Importing the rows and constraint-based estimation with the prior knowledge `known` return, sequentially and in parallel with every order of completion, a network that
has all edges of `N`. -/
def KeepsEdges (N : Ctbn) (es : List Edge) (P : IndepParams) (known : List Edge) (raws : List RawTraj) : Prop :=
  ∃ (p : SamplePath) (s : Structure) (t : Trajectory), buildFromRaw (raws.map (SampleNet.frame N.vars)) ⟨List.range N.vars.length, N.vars, N.vars.map N.card⟩ es = .ok p ∧
    p.struct = some s ∧ p.trajectories = some t ∧
    ∀ M, buildRemovable s s.total known = .ok M → ∃ es', ((⟨s, s.total, t, independenceTest P⟩ : CBEnv).ctpcSequential ⟨[], M⟩).1 = .ok es' ∧
      (∀ order : List Label, order.Perm N.vars → ((⟨s, s.total, t, independenceTest P⟩ : CBEnv).ctpcParallel ⟨[], M⟩ order).1 = .ok es') ∧ ∀ e ∈ N.edges, e ∈ es'

/-- Rows of growing size whose times and counts per unit of size are likely to be close to those of the stationary process, which `k` relates to the size. -/
structure CloseRows (N : Ctbn) (π : List Nat → ℝ) {Ω ι : Type} [MeasurableSpace Ω] (μ : Measure Ω) (l : Filter ι) (size : ι → ℝ) (k : ℝ) (rows : ι → Ω → List RawTraj) : Prop where
  grows : Tendsto size l atTop
  pos : 0 < k
  close : ∀ {ε : ℝ}, 0 < ε → ∀ {v : Label}, v ∈ N.vars → ∀ {L : List Label}, (∀ p ∈ L, p ∈ N.vars) → ∀ (x : Nat) (u : List Nat),
    Likely μ l (fun m ω => |(rawResidence N.vars (rows m ω) v L x u : ℝ) / size m - share N π v L x u / k| < ε) ∧
    ∀ y < N.card v, y ≠ x →
      Likely μ l (fun m ω => |(rawTransitions N.vars (rows m ω) v L x y u : ℝ) / size m - flux N N.inverseRates π v L x y u / k| < ε)
  usable : Likely μ l (fun m ω => UsableData N (rows m ω))

theorem TypicalRows.toClose {N : Ctbn} {π : List Nat → ℝ} {Ω ι : Type} [MeasurableSpace Ω] {μ : Measure Ω} {l : Filter ι} {size : ι → ℝ} {k : ℝ} {rows : ι → Ω → List RawTraj}
    (h : TypicalRows N π μ l size k rows) : CloseRows N π μ l size k rows where
  grows := h.grows
  pos := h.pos
  close hε _ hv _ hL x u := ⟨(h.close hε hv hL x u).1, fun y hy hyx => ((h.close hε hv hL x u).2 y hy hyx).1⟩
  usable := h.usable

section
variable {net : SampleNet} {N : Ctbn} (hD : Describes net N) (hOK : N.OK)
include hD hOK
variable {U : Type} [MeasurableSpace U] {P : Measure U} [IsProbabilityMeasure P] (C : Categorical U P)

theorem flux_positive (hc : N.Conservative) (hpos : N.AllPositive) {π : List Nat → ℝ} (hπ : Stationary N N.inverseRates π) {n : Label} (hn : n ∈ N.vars) {L : List Label}
    (hL : ∀ q ∈ L, q ∈ N.vars) (hnL : n ∉ L) {f : Label → Nat} (hf : ∀ q ∈ N.vars, f q < N.card q) {x y : Nat} (hx : x < N.card n) (hy : y < N.card n) (hyx : y ≠ x) :
    0 < flux N N.inverseRates π n L x y (L.map f) := by
  have hirr := irreducible_of_allPositive hOK hpos
  have hU := usable_inverse hD hOK (leaves_of_conservative hD hOK hc)
  have hconn := connected_inverse hD hOK hc hirr
  have hrate : ∀ a ∈ N.joint, N.state a n = x → 0 < N.inverseRates a n y := by
    intro a ha hs
    have hr := (mem_joint hOK).1 ha
    have h1 := leaves_of_conservative hD hOK hc a hr n hn
    have h2 := hpos a hr n hn y hy (by rw [hs]; exact hyx)
    have h1' : (0 : ℝ) < (N.exitRate a n : ℝ) := by exact_mod_cast h1
    have h2' : 0 < N.rates a n y := by
      unfold Ctbn.rates
      rw [if_neg (by rw [hs]; exact hyx)]
      exact_mod_cast h2
    unfold Ctbn.inverseRates
    rw [← hc a hr n hn]
    positivity
  have hr : N.InRange (N.vars.map (Function.update f n x)) := by
    refine ⟨by simp, fun q hq => ?_⟩
    rw [joint_of _ hq]
    by_cases e : q = n
    · subst e; rw [Function.update_self]; exact hx
    · rw [Function.update_of_ne e]; exact hf q hq
  unfold flux
  refine Finset.sum_pos' (fun a ha => ?_) ⟨_, (mem_joint hOK).2 hr, ?_⟩
  · split_ifs with h
    · exact mul_nonneg (hπ.nonneg a ha) (hrate a ha h.1).le
    · exact le_rfl
  · have hst : N.state (N.vars.map (Function.update f n x)) n = x := by rw [joint_of _ hn, Function.update_self]
    rw [if_pos]
    · exact mul_pos (stationary_pos hOK hU hconn hπ hr) (hrate _ ((mem_joint hOK).2 hr) hst)
    · rw [circumstances_iff]
      refine ⟨hst, fun q hq => ?_⟩
      rw [joint_of _ (hL q hq), Function.update_of_ne]
      rintro rfl
      exact hnL hq

/-- Given all parents but `p`, or not, the mean rates differ. -/
theorem matters_beyond {π : List Nat → ℝ} {n p : Label} {K : List Label} (hpK : p ∉ K) (h : StationaryMatters N N.inverseRates π n K p) :
    ∃ f : Label → Nat, (∀ q ∈ N.vars, f q < N.card q) ∧ ∃ x y, x < N.card n ∧ y < N.card n ∧ y ≠ x ∧
      meanRate N N.inverseRates π n K x y (K.map f) ≠ meanRate N N.inverseRates π n (p :: K) x y ((p :: K).map f) := by
  obtain ⟨f, hf, x, y, z, z', hx, hy, hyx, hz, hz', hne⟩ := h
  have hmap : ∀ w, (p :: K).map (Function.update f p w) = w :: K.map f ∧ K.map (Function.update f p w) = K.map f := by
    intro w
    have : K.map (Function.update f p w) = K.map f := List.map_congr_left (fun q hq => Function.update_of_ne (by rintro rfl; exact hpK hq) _ _)
    exact ⟨by rw [List.map_cons, Function.update_self, this], this⟩
  have hin : ∀ w, w < N.card p → ∀ q ∈ N.vars, Function.update f p w q < N.card q := by
    intro w hw q hq
    by_cases e : q = p
    · subst e; rwa [Function.update_self]
    · rw [Function.update_of_ne e]; exact hf q hq
  by_cases h1 : meanRate N N.inverseRates π n K x y (K.map f) = meanRate N N.inverseRates π n (p :: K) x y (z :: K.map f)
  · refine ⟨Function.update f p z', hin z' hz', x, y, hx, hy, hyx, ?_⟩
    rw [(hmap z').1, (hmap z').2, h1]
    exact hne
  · refine ⟨Function.update f p z, hin z hz, x, y, hx, hy, hyx, ?_⟩
    rw [(hmap z).1, (hmap z).2]
    exact h1

/-! ## C197 -/

/-- Constraint-based estimation keeps the edges of the network on typical rows. -/
theorem typical_edges_kept {Ω ι : Type} [MeasurableSpace Ω] {μ : Measure Ω} {l : Filter ι} {size : ι → ℝ} {k : ℝ} {rows : ι → Ω → List RawTraj} {π : List Nat → ℝ}
    (hrows : CloseRows N π μ l size k rows) (hcl : NoSuffixClash N.vars) (hT : "Time" ∉ N.vars) (hc : N.Conservative) (hpos : N.AllPositive) {c : Nat} (hc0 : 0 < c)
    (hcard : ∀ v ∈ N.vars, N.card v = c) (hns : ∀ v ∈ N.vars, v ∉ N.parents v) (hπ : Stationary N N.inverseRates π)
    (hmat : ∀ n ∈ N.vars, ∀ p ∈ N.parents n, ∀ K : List Label, (∀ q ∈ K, q ∈ N.vars) → p ∉ K → n ∉ K → StationaryMatters N N.inverseRates π n K p)
    (es : List Edge) {Q : IndepParams} (hQ : QuantilesTighten Q c) (known : List Edge) :
    Likely μ l (fun m ω => KeepsEdges N es Q known (rows m ω)) := by
  have hirr := irreducible_of_allPositive hOK hpos
  have hleaves := leaves_of_conservative hD hOK hc
  have hpace := hrows.pos
  set s := builtStruct N.vars (N.vars.map N.card) es with hs
  have hfr : ∀ f : Label → Nat, (∀ q, f q < c) → ∀ q ∈ N.vars, f q < N.card q := fun f hf q hq => by rw [hcard q hq]; exact hf q
  have hsl : ∀ L ∈ N.vars.sublists, ∀ q ∈ L, q ∈ N.vars := fun L hL q hq => (List.mem_sublists.1 hL).subset hq
  have hedge : ∀ e ∈ N.edges, ∃ ε > 0, ∃ m₀ : ℝ, ∀ m, m₀ ≤ m → ∀ t, UniformRun ⟨s, s.total, t, independenceTest Q⟩ Q c →
      StatsCloseTo s c (fun n L x u => share N π n L x u / k) (fun n L x y u => flux N N.inverseRates π n L x y u / k) m ε t →
      ∀ (M : List (List Bool)) (es : List Edge), ((⟨s, s.total, t, independenceTest Q⟩ : CBEnv).ctpcSequential ⟨[], M⟩).1 = .ok es → e ∈ es := by
    rintro ⟨p, n⟩ he
    obtain ⟨h1, h2⟩ := mem_edges.1 he
    have hp := hOK.closed n h1 p h2
    refine kept_if_close hQ hp h1 (by rintro rfl; exact hns _ h1 h2)
      (fun L hL hnL f hf x hx => div_pos (share_positive hD hOK hc hirr hπ h1 (hsl L hL) hnL (hfr f hf) (by rw [hcard n h1]; exact hx)) hpace)
      (fun L hL hnL f hf x hx y hy hyx => div_pos (flux_positive hD hOK hc hpos hπ h1 (hsl L hL) hnL (hfr f hf) (by rw [hcard n h1]; exact hx) (by rw [hcard n h1]; exact hy) hyx) hpace)
      (fun K hK hpK hnK => ?_)
    obtain ⟨f, hf, x, y, hx, hy, hyx, hne⟩ := matters_beyond hD hOK hpK (hmat n h1 p h2 K hK hpK hnK)
    rw [hcard n h1] at hx hy
    refine ⟨fun q => if q ∈ N.vars then f q else 0, fun q => ?_, x, y, hx, hy, hyx, ?_⟩
    · dsimp only
      split_ifs with hq
      · rw [← hcard q hq]; exact hf q hq
      · exact hc0
    · have hmem : ∀ K' : List Label, (∀ q ∈ K', q ∈ N.vars) → ∀ q, q ∈ ordered s K' ↔ q ∈ K' := fun K' hK' q => by
        unfold ordered
        rw [List.mem_filter, decide_eq_true_eq]
        exact ⟨fun h => h.2, fun h => ⟨hK' q h, h⟩⟩
      have hmap : ∀ K' : List Label, (∀ q ∈ K', q ∈ N.vars) → K'.map (fun q => if q ∈ N.vars then f q else 0) = K'.map f := fun K' hK' =>
        List.map_congr_left (fun q hq => if_pos (hK' q hq))
      have hpK' : ∀ q ∈ p :: K, q ∈ N.vars := by
        intro q hq
        rcases List.mem_cons.1 hq with rfl | hq
        · exact hp
        · exact hK q hq
      rw [share_congr N π n (hmem K hK), share_congr N π n (hmem _ hpK'), flux_congr N _ π n (hmem K hK), flux_congr N _ π n (hmem _ hpK'), hmap K hK, hmap _ hpK',
        div_div_div_cancel_right₀ hpace.ne', div_div_div_cancel_right₀ hpace.ne']
      exact hne
  have hone : ∀ e ∈ N.edges, Likely μ l (fun m ω => ∀ t, UniformRun ⟨s, s.total, t, independenceTest Q⟩ Q c →
      (∀ n ∈ N.vars, ∀ L : List Label, (∀ q ∈ L, q ∈ N.vars) → ∀ x u, residence s t n L x u = rawResidence N.vars (rows m ω) n L x u ∧
        ∀ y, transitions s t n L x y u = rawTransitions N.vars (rows m ω) n L x y u) →
      ∀ (M : List (List Bool)) (es : List Edge), ((⟨s, s.total, t, independenceTest Q⟩ : CBEnv).ctpcSequential ⟨[], M⟩).1 = .ok es → e ∈ es) := by
    intro e he
    obtain ⟨ε, hε, m₀, hkept⟩ := hedge e he
    have hclose : Likely μ l (fun m ω => ∀ n, n ∈ N.vars → ∀ L, L ∈ N.vars.sublists → ∀ u, u ∈ assignments (L.map (fun _ => c)) → ∀ x, x < c →
        |(rawResidence N.vars (rows m ω) n L x u : ℝ) / size m - share N π n L x u / k| < ε ∧ ∀ y, y < c → y ≠ x →
        |(rawTransitions N.vars (rows m ω) n L x y u : ℝ) / size m - flux N N.inverseRates π n L x y u / k| < ε) := by
      refine Likely.all (mem_list_finite _) (fun n hn => Likely.all (mem_list_finite _) (fun L hL => Likely.all (mem_list_finite _) (fun u hu =>
        Likely.all (Set.finite_lt_nat c) (fun x hx => ?_))))
      obtain ⟨g1, g2⟩ := hrows.close hε hn (hsl L hL) x u
      exact g1.and (Likely.all (Set.finite_lt_nat c) (fun y hy => Likely.imp (fun hyx => g2 y (by rw [hcard n hn]; exact hy) hyx)))
    refine hclose.mono ?_
    filter_upwards [hrows.grows.eventually_ge_atTop m₀] with m hm ω h t hrun hstat
    refine hkept _ hm t hrun (fun n hn L hL u hu x hx => ?_)
    obtain ⟨g1, g2⟩ := h n hn L hL u hu x hx
    rw [(hstat n hn L (hsl L hL) x u).1]
    refine ⟨g1, fun y hy hyx => ?_⟩
    rw [(hstat n hn L (hsl L hL) x u).2 y]
    exact g2 y hy hyx
  refine ((Likely.all (N.edges.finite_toSet) hone).and hrows.usable).mono (.of_forall (fun m ω ⟨h1, h2⟩ => ?_))
  obtain ⟨⟨p, p1, p2, p3⟩, hdata, hstat⟩ := usable_builds hOK hcl hT hcard h2 es
  have hd : DataOK s (builtTraj N.vars (rows m ω)) := ⟨hdata.data.origCols, hdata.data.len, hdata.data.width, hdata.data.idx_lt, hdata.data.cur, hdata.data.nxt⟩
  have hw : WFStructure s := ⟨hdata.wf.1, hdata.wf.2, hdata.wf.3⟩
  have hrun : UniformRun ⟨s, s.total, builtTraj N.vars (rows m ω), independenceTest Q⟩ Q c :=
    ⟨rfl, hw, hd, hdata.cards, hc0, rfl, List.nodup_range⟩
  refine ⟨p, s, _, p1, p2, p3, fun M hM => ?_⟩
  obtain ⟨es', e1, e2, -⟩ := constraint_based_returns_partial hrun.test hrun.wf hrun.indexes hrun.total hrun.data hc0 hrun.cards hM
  exact ⟨es', e1, e2, fun e he => h1 e he _ hrun hstat M es' e1⟩

/-- **C197** Long sampled trajectories keep every true parent.  All variables have `c ≥ 2` states, every variable can always move to each of its other states, no variable is
its own parent, and in the stationary process every parent matters to its child whatever other variables are taken into account; the quantiles of the F distribution tend to 1
with its degrees of freedom.  Then the probability that importing a trajectory sampled with `max_tr = m` and constraint-based estimation do not succeed with a network that
has every edge of the network sampled tends to 0. -/
theorem sampled_edges_kept (hcl : NoSuffixClash N.vars) (hT : "Time" ∉ N.vars) (hc : N.Conservative) (hpos : N.AllPositive) {c : Nat} (hc0 : 0 < c)
    (hcard : ∀ v ∈ N.vars, N.card v = c) (hns : ∀ v ∈ N.vars, v ∉ N.parents v) {π : List Nat → ℝ} (hπ : Stationary N N.inverseRates π)
    (hmat : ∀ n ∈ N.vars, ∀ p ∈ N.parents n, ∀ K : List Label, (∀ q ∈ K, q ∈ N.vars) → p ∉ K → n ∉ K → StationaryMatters N N.inverseRates π n K p)
    (es : List Edge) {Q : IndepParams} (hQ : QuantilesTighten Q c) (known : List Edge) :
    Tendsto (fun m => drawLaw N.vars.length P {ω | ¬ KeepsEdges N es Q known [sampledRows net C m ω]}) atTop (𝓝 0) :=
  typical_edges_kept hD hOK (sampled_typical hD hOK C hc (irreducible_of_allPositive hOK hpos) hπ).toClose hcl hT hc hpos hc0 hcard hns hπ hmat es hQ known

/-- **C198** It is enough that every parent tells. -/
theorem telling_edges_kept (hcl : NoSuffixClash N.vars) (hT : "Time" ∉ N.vars) (hc : N.Conservative) (hpos : N.AllPositive) {c : Nat} (hc0 : 0 < c)
    (hcard : ∀ v ∈ N.vars, N.card v = c) (hns : ∀ v ∈ N.vars, v ∉ N.parents v) (htell : ∀ n ∈ N.vars, ∀ p ∈ N.parents n, Tells N p n)
    (es : List Edge) {Q : IndepParams} (hQ : QuantilesTighten Q c) (known : List Edge) :
    Tendsto (fun m => drawLaw N.vars.length P {ω | ¬ KeepsEdges N es Q known [sampledRows net C m ω]}) atTop (𝓝 0) := by
  have hirr := irreducible_of_allPositive hOK hpos
  obtain ⟨π, hπ, -⟩ := sample_stationary hD hOK hc hirr
  exact sampled_edges_kept hD hOK C hcl hT hc hpos hc0 hcard hns hπ
    (fun n hn p hp K hK hpK hnK => tells_matters hD hOK hc hirr hπ hn hp (by rintro rfl; exact hns _ hn hp) (htell n hn p hp) hK hpK hnK) es hQ known

end

/-! ## Non-vacuity -/

namespace Demo

/-- C197, C198: on long trajectories sampled from `X → Y`, constraint-based estimation keeps the edge. -/
example : Tendsto (fun m => drawLaw 2 (Measure.infinitePi choiceLaw)
      {ω | ¬ KeepsEdges pairCtbn [] tightParams [] [sampledRows pairNet someCategorical m ω]}) atTop (𝓝 0) :=
  telling_edges_kept pair_describes pair_ok someCategorical (by unfold NoSuffixClash; decide) (by decide) pair_conservative pair_allPositive (by norm_num) (fun _ _ => rfl)
    (by decide) pair_parents_tell [] (tight_tightens 2) []

/-- The prior knowledge is accepted by the structure that is built. -/
example : ∃ M, buildRemovable (builtStruct ["X", "Y"] [2, 2] []) (builtStruct ["X", "Y"] [2, 2] []).total [] = .ok M := ⟨_, rfl⟩

end Demo

end

end PyCTBN
