import Verif.Lemmas.LevelTest
import Verif.Lemmas.ScipyLevels
import Verif.Props.ManyLong
import Verif.Props.CtpcShape

/-!
# C221: with shrinking significance levels, constraint-based estimation recovers the network from long sampled trajectories
-/

open MeasureTheory ProbabilityTheory Filter
open scoped ENNReal Topology

namespace PyCTBN
open Spec JumpPaths Indep

noncomputable section

theorem assignments_finite (labels : List Label) (c : Nat) : {a : Label → Nat | (∀ q, a q < c) ∧ ∀ q, q ∉ labels → a q = 0}.Finite := by
  have : ((fun (g : labels.toFinset → Fin c) (q : Label) => if h : q ∈ labels.toFinset then (g ⟨q, h⟩ : Nat) else 0) '' Set.univ).Finite := Set.finite_univ.image _
  refine this.subset (fun a ⟨h1, h2⟩ => ⟨fun q => ⟨a q, h1 q⟩, Set.mem_univ _, ?_⟩)
  funext q
  by_cases h : q ∈ labels.toFinset
  · simp [h]
  · dsimp only
    rw [dif_neg h, h2 q (fun hh => h (List.mem_toFinset.2 hh))]

theorem given_restrict (s : Structure) (t : Trajectory) (n : Label) (c : Nat) (K : List Label) (a : Label → Nat) :
    given s t n c K a = given s t n c K (fun q => if q ∈ s.labels then a q else 0) := by
  unfold given
  congr 1
  exact List.map_congr_left (fun q hq => (if_pos (List.mem_filter.1 hq).1).symm)

theorem given_ordered (s : Structure) (t : Trajectory) (n : Label) (c : Nat) (K : List Label) (a : Label → Nat) :
    given s t n c (ordered s K) a = given s t n c K a := by
  unfold given
  rw [ordered_congr (K := ordered s K) (K' := K) (fun l hl => by unfold ordered; rw [List.mem_filter]; simp [hl])]

theorem given_ordered_cons (s : Structure) (t : Trajectory) (n p : Label) (c : Nat) (K : List Label) (a : Label → Nat) :
    given s t n c (p :: ordered s K) a = given s t n c (p :: K) a := by
  unfold given
  rw [ordered_congr (K := p :: ordered s K) (K' := p :: K) (fun l hl => by unfold ordered; rw [List.mem_cons, List.mem_cons, List.mem_filter]; simp [hl])]

/-- The statistics of the data are close to `S` and `μ`, on the scale `N`, and given all parents the counts follow the rates `ρ` up to `√(ε N h)`. -/
def CloseScale (s : Structure) (c : Nat) (par : Label → List Label) (S : Label → List Label → Nat → List Nat → ℝ) (μ ρ : Label → List Label → Nat → Nat → List Nat → ℝ)
    (N h ε : ℝ) (t : Trajectory) : Prop :=
  ∀ n ∈ s.labels, ∀ L ∈ s.labels.sublists, ∀ u ∈ assignments (L.map (fun _ => c)), ∀ x < c,
    |(residence s t n L x u : ℝ) / N - S n L x u| < ε ∧ ∀ y < c, y ≠ x → |(transitions s t n L x y u : ℝ) / N - μ n L x y u| < ε ∧
      ((∀ p ∈ par n, p ∈ L) → ((transitions s t n L x y u : ℝ) - ρ n L x y u * (residence s t n L x u : ℝ)) ^ 2 / (N * h) < ε)

/-- If the limits are those of `truth`, then along data getting closer and closer to the limits all tests are once right about `truth`. -/
theorem tests_right_seq {s : Structure} {c : Nat} (hc2 : 2 ≤ c) {Q : ℕ → IndepParams} {m h : ℕ → ℝ} (hQ : LevelsAlong Q m h c) (hN : Tendsto m atTop atTop) {truth : Finset Edge}
    {par : Label → List Label} (hpar : ∀ p n, p ∈ par n ↔ (p, n) ∈ truth) (hparl : ∀ n, ∀ q ∈ par n, q ∈ s.labels ∧ q ≠ n)
    {S : Label → List Label → Nat → List Nat → ℝ} {μ ρ : Label → List Label → Nat → Nat → List Nat → ℝ}
    (hS : ∀ n ∈ s.labels, ∀ L ∈ s.labels.sublists, n ∉ L → ∀ f : Label → Nat, (∀ q, f q < c) → ∀ x < c, 0 < S n L x (L.map f))
    (hμ : ∀ n ∈ s.labels, ∀ L ∈ s.labels.sublists, n ∉ L → ∀ f : Label → Nat, (∀ q, f q < c) → ∀ x < c, ∀ y < c, y ≠ x → 0 < μ n L x y (L.map f))
    (hρ : ∀ n ∈ s.labels, ∀ L ∈ s.labels.sublists, n ∉ L → (∀ q ∈ par n, q ∈ L) → ∀ f : Label → Nat, (∀ q, f q < c) → ∀ x < c, ∀ y < c, y ≠ x →
      0 < ρ n L x y (L.map f))
    (hdep : ∀ n ∈ s.labels, ∀ L ∈ s.labels.sublists, ∀ L' ∈ s.labels.sublists, (∀ q ∈ par n, q ∈ L) → (∀ q ∈ par n, q ∈ L') → ∀ f : Label → Nat, ∀ x y,
      ρ n L x y (L.map f) = ρ n L' x y (L'.map f))
    (hmat : ∀ p n, (p, n) ∈ truth → ∀ K : List Label, (∀ q ∈ K, q ∈ s.labels) → p ∉ K → n ∉ K → ∃ f : Label → Nat, (∀ q, f q < c) ∧ ∃ x y, x < c ∧ y < c ∧ y ≠ x ∧
      μ n (ordered s K) x y ((ordered s K).map f) / S n (ordered s K) x ((ordered s K).map f) ≠
        μ n (ordered s (p :: K)) x y ((ordered s (p :: K)).map f) / S n (ordered s (p :: K)) x ((ordered s (p :: K)).map f))
    {δ : ℕ → ℝ} (hε : Tendsto δ atTop (𝓝 0)) {ts : ℕ → Trajectory} (hU : ∀ k, UniformRun ⟨s, s.total, ts k, independenceTest (Q k)⟩ (Q k) c)
    (hclose : ∀ k, CloseScale s c par S μ ρ (m k) (h k) (δ k) (ts k)) :
    ∃ k, PerfectTests ⟨s, s.total, ts k, independenceTest (Q k)⟩ (fun p n => (p, n) ∈ truth) := by
  have hc0 : 0 < c := by omega
  have hw : WFStructure s := (hU 0).wf
  have hord : ∀ K, ordered s K ∈ s.labels.sublists := fun K => List.mem_sublists.2 List.filter_sublist
  have hnot : ∀ {n : Label} {K}, n ∉ K → n ∉ ordered s K := fun hK hh => hK (by
    unfold ordered at hh
    simpa using (List.mem_filter.1 hh).2)
  have hin : ∀ {n : Label} {K}, (∀ q ∈ par n, q ∈ K) → ∀ q ∈ par n, q ∈ ordered s K := fun {n K} h q hq => by
    unfold ordered
    exact List.mem_filter.2 ⟨(hparl n q hq).1, by simpa using h q hq⟩
  have htime : ∀ n ∈ s.labels, ∀ K, ∀ f : Label → Nat, (∀ q, f q < c) → ∀ x < c,
      Tendsto (fun k => ((given s (ts k) n c K f).time x : ℝ) / m k) atTop (𝓝 (S n (ordered s K) x ((ordered s K).map f))) := by
    intro n hn K f hf x hx
    refine tendsto_iff_dist_tendsto_zero.2 (squeeze_zero (fun _ => dist_nonneg) (fun k => ?_) hε)
    rw [Real.dist_eq]
    exact (hclose k n hn _ (hord _) _ (lt_assignments hf) x hx).1.le
  have hcount : ∀ n ∈ s.labels, ∀ K, ∀ f : Label → Nat, (∀ q, f q < c) → ∀ x < c, ∀ y < c, y ≠ x →
      Tendsto (fun k => ((given s (ts k) n c K f).count x y : ℝ) / m k) atTop (𝓝 (μ n (ordered s K) x y ((ordered s K).map f))) := by
    intro n hn K f hf x hx y hy hyx
    refine tendsto_iff_dist_tendsto_zero.2 (squeeze_zero (fun _ => dist_nonneg) (fun k => ?_) hε)
    rw [Real.dist_eq]
    have := ((hclose k n hn _ (hord K) _ (lt_assignments hf) x hx).2 y hy hyx).1.le
    rwa [show (given s (ts k) n c K f).count x y = transitions s (ts k) n (ordered s K) x y ((ordered s K).map f) from if_neg hyx.symm]
  have hdev : ∀ n ∈ s.labels, ∀ K, (∀ q ∈ par n, q ∈ K) → ∀ f : Label → Nat, (∀ q, f q < c) → ∀ x < c, ∀ y < c, y ≠ x →
      Tendsto (fun k => (((given s (ts k) n c K f).count x y : ℝ) - ρ n (ordered s K) x y ((ordered s K).map f) * (given s (ts k) n c K f).time x) ^ 2 /
        (m k * h k)) atTop (𝓝 0) := by
    intro n hn K hK f hf x hx y hy hyx
    refine squeeze_zero' ?_ (Filter.Eventually.of_forall (fun k => ?_)) hε
    · filter_upwards [hN.eventually_gt_atTop 0, hQ.grow.eventually_gt_atTop 0] with k hk hk'
      positivity
    · have := (((hclose k n hn _ (hord K) _ (lt_assignments hf) x hx).2 y hy hyx).2 (hin hK)).le
      rwa [show (given s (ts k) n c K f).count x y = transitions s (ts k) n (ordered s K) x y ((ordered s K).map f) from if_neg hyx.symm]
  let E : Label → List Label → (Label → Nat) → Nat → ℝ := fun n K f x => ∑ z ∈ (Finset.range c).erase x, μ n (ordered s K) x z ((ordered s K).map f)
  have hexit : ∀ n ∈ s.labels, ∀ K, ∀ f : Label → Nat, (∀ q, f q < c) → ∀ x < c,
      Tendsto (fun k => ((given s (ts k) n c K f).count x x : ℝ) / m k) atTop (𝓝 (E n K f x)) := by
    intro n hn K f hf x hx
    have := tendsto_finsetSum ((Finset.range c).erase x) (fun z hz => hcount n hn K f hf x hx z (Finset.mem_range.1 (Finset.mem_of_mem_erase hz)) (Finset.ne_of_mem_erase hz))
    refine this.congr (fun k => ?_)
    rw [← Finset.sum_div]
    congr 1
    have e : (given s (ts k) n c K f).count x x = ∑ z ∈ (Finset.range c).erase x, (given s (ts k) n c K f).count x z := by
      unfold given observed
      simp only [if_true]
      refine Finset.sum_congr rfl (fun z hz => ?_)
      rw [if_neg (Finset.ne_of_mem_erase hz).symm]
    rw [e]
    push_cast
    rfl
  have hEpos : ∀ n ∈ s.labels, ∀ K, n ∉ K → ∀ f : Label → Nat, (∀ q, f q < c) → ∀ x < c, 0 < E n K f x := by
    intro n hn K hK f hf x hx
    refine Finset.sum_pos (fun z hz => hμ n hn _ (hord K) (hnot hK) f hf x hx z (Finset.mem_range.1 (Finset.mem_of_mem_erase hz)) (Finset.ne_of_mem_erase hz)) ?_
    rcases Nat.eq_zero_or_pos x with rfl | h0
    · exact ⟨1, Finset.mem_erase.2 ⟨one_ne_zero, Finset.mem_range.2 (by omega)⟩⟩
    · exact ⟨0, Finset.mem_erase.2 ⟨by omega, Finset.mem_range.2 (by omega)⟩⟩
  have hexits : ∀ k n K f, ExitCounts c (given s (ts k) n c K f).count := by
    intro k n K f x hx
    unfold given observed
    simp only [if_true]
    refine Finset.sum_congr rfl (fun z hz => ?_)
    rw [if_neg (Finset.ne_of_mem_erase hz).symm]
  -- true parents are detected
  have hdetect : ∀ n ∈ s.labels, ∀ p ∈ s.labels, (p, n) ∈ truth → ∀ K ∈ s.labels.sublists, p ∉ K → n ∉ K →
      ∀ᶠ k in atTop, ∃ a : Label → Nat, (∀ q, a q < c) ∧ ToldApart (Q k) c (given s (ts k) n c K a) (given s (ts k) n c (p :: K) a) := by
    intro n hn p hp he K hKs hpK hnK
    have hne : n ≠ p := fun e => (hparl n p ((hpar p n).2 he)).2 e.symm
    obtain ⟨f, hf, x, y, hx, hy, hyx, hd⟩ := hmat p n he K (fun q hq => (List.mem_sublists.1 hKs).subset hq) hpK hnK
    have hnK' : n ∉ p :: K := by
      simp only [List.mem_cons, not_or]
      exact ⟨hne, hnK⟩
    have s1 := hS n hn _ (hord K) (hnot hnK) f hf x hx
    have s2 := hS n hn _ (hord (p :: K)) (hnot hnK') f hf x hx
    have e1 := hEpos n hn K hnK f hf x hx
    have e2 := hEpos n hn (p :: K) hnK' f hf x hx
    have g1 := hμ n hn _ (hord K) (hnot hnK) f hf x hx y hy hyx
    have g2 := hμ n hn _ (hord (p :: K)) (hnot hnK') f hf x hx y hy hyx
    by_cases hr : E n K f x / S n (ordered s K) x ((ordered s K).map f) = E n (p :: K) f x / S n (ordered s (p :: K)) x ((ordered s (p :: K)).map f)
    · have hall : ∀ z ∈ (Finset.range c).erase x, ∀ᶠ k in atTop, 0 < (given s (ts k) n c K f).count x z := by
        intro z hz
        have hz' := Finset.mem_range.1 (Finset.mem_of_mem_erase hz)
        have hzx := Finset.ne_of_mem_erase hz
        filter_upwards [(grows_of_share hN (hμ n hn _ (hord K) (hnot hnK) f hf x hx z hz' hzx) (hcount n hn K f hf x hx z hz' hzx)).eventually_gt_atTop 0] with k hk
        exact_mod_cast hk
      have hobs : ∀ᶠ k in atTop, ∀ z, z < c → z ≠ x → 0 < (given s (ts k) n c K f).count x z := by
        filter_upwards [(Filter.eventually_all_finset _).2 hall] with k hk z hz hzx
        exact hk z (Finset.mem_erase.2 ⟨hzx, Finset.mem_range.2 hz⟩)
      refine (levels_tell_shares hQ hN hx hy hyx e1 e2 g1 g2 (fun hθ => hd ?_) (hexit n hn K f hf x hx) (hexit n hn (p :: K) f hf x hx)
        (hcount n hn K f hf x hx y hy hyx) (hcount n hn (p :: K) f hf x hx y hy hyx) hobs).mono (fun k hk => ⟨f, hf, hk⟩)
      calc μ n (ordered s K) x y ((ordered s K).map f) / S n (ordered s K) x ((ordered s K).map f)
          = μ n (ordered s K) x y ((ordered s K).map f) / E n K f x * (E n K f x / S n (ordered s K) x ((ordered s K).map f)) := by field_simp
        _ = _ := by
          rw [hθ, hr]
          field_simp
    · exact (levels_tell_rates hQ hN hx s1 s2 e1 e2 hr (htime n hn K f hf x hx) (htime n hn (p :: K) f hf x hx) (hexit n hn K f hf x hx)
        (hexit n hn (p :: K) f hf x hx)).mono (fun k hk => ⟨f, hf, hk⟩)
  -- given all parents nothing else is
  have hquiet : ∀ n ∈ s.labels, ∀ p ∈ s.labels, p ≠ n → ∀ K ∈ s.labels.sublists, p ∉ K → n ∉ K → (∀ q ∈ par n, q ∈ K) → ∀ f : Label → Nat, (∀ q, f q < c) →
      ∀ᶠ k in atTop, ¬ ToldApart (Q k) c (given s (ts k) n c K f) (given s (ts k) n c (p :: K) f) := by
    intro n hn p hp hpn K hKs hpK hnK hpar' f hf
    have hnK' : n ∉ p :: K := by
      simp only [List.mem_cons, not_or]
      exact ⟨hpn.symm, hnK⟩
    have hpar'' : ∀ q ∈ par n, q ∈ p :: K := fun q hq => List.mem_cons_of_mem _ (hpar' q hq)
    have hsame : ∀ x y, ρ n (ordered s (p :: K)) x y ((ordered s (p :: K)).map f) = ρ n (ordered s K) x y ((ordered s K).map f) := fun x y =>
      hdep n hn _ (hord _) _ (hord _) (hin hpar'') (hin hpar') f x y
    refine levels_not_told hQ hN hc2 (fun k => hexits k n K f) (fun k => hexits k n (p :: K) f) (ρ := fun x y => ρ n (ordered s K) x y ((ordered s K).map f))
      (fun x hx y hy hyx => hρ n hn _ (hord K) (hnot hnK) (hin hpar') f hf x hx y hy hyx) (fun x hx => hS n hn _ (hord K) (hnot hnK) f hf x hx)
      (fun x hx => hS n hn _ (hord (p :: K)) (hnot hnK') f hf x hx) (fun x hx => htime n hn K f hf x hx) (fun x hx => htime n hn (p :: K) f hf x hx)
      (fun x hx y hy hyx => hdev n hn K hpar' f hf x hx y hy hyx) (fun x hx y hy hyx => ?_)
    have := hdev n hn (p :: K) hpar'' f hf x hx y hy hyx
    rw [hsame] at this
    exact this
  have hrich : ∀ n ∈ s.labels, ∀ K ∈ s.labels.sublists, n ∉ K → ∀ f : Label → Nat, (∀ q, f q < c) →
      ∀ᶠ k in atTop, ¬ Scarce (Q k) c (given s (ts k) n c K f).count ((c - 1) ^ 2 * c * c ^ (ordered s K).length) := by
    intro n hn K hKs hnK f hf
    refine levels_not_scarce hQ hN hc0 (hEpos n hn K hnK f hf 0 hc0) (hexit n hn K f hf 0 hc0) (fun h => ?_)
    have : 0 < c - 1 := by omega
    positivity
  -- all at once
  have hall : ∀ᶠ k in atTop, ∀ n ∈ s.labels.toFinset, ∀ K ∈ s.labels.sublists.toFinset,
      (∀ p ∈ s.labels.toFinset, ((p, n) ∈ truth → p ∉ K → n ∉ K →
        ∃ a : Label → Nat, (∀ q, a q < c) ∧ ToldApart (Q k) c (given s (ts k) n c K a) (given s (ts k) n c (p :: K) a)) ∧
      (p ≠ n → p ∉ K → n ∉ K → (∀ q ∈ par n, q ∈ K) → ∀ f ∈ (assignments_finite s.labels c).toFinset,
        ¬ ToldApart (Q k) c (given s (ts k) n c K f) (given s (ts k) n c (p :: K) f))) ∧
      (n ∉ K → ∀ f ∈ (assignments_finite s.labels c).toFinset, ¬ Scarce (Q k) c (given s (ts k) n c K f).count ((c - 1) ^ 2 * c * c ^ (ordered s K).length)) := by
    rw [Filter.eventually_all_finset]
    intro n hn
    rw [Filter.eventually_all_finset]
    intro K hK
    rw [List.mem_toFinset] at hn hK
    refine Filter.Eventually.and ?_ ?_
    · rw [Filter.eventually_all_finset]
      intro p hp
      rw [List.mem_toFinset] at hp
      refine Filter.Eventually.and ?_ ?_
      · by_cases h1 : (p, n) ∈ truth ∧ p ∉ K ∧ n ∉ K
        · exact (hdetect n hn p hp h1.1 K hK h1.2.1 h1.2.2).mono (fun k hk _ _ _ => hk)
        · exact Filter.Eventually.of_forall (fun k a b d => absurd ⟨a, b, d⟩ h1)
      · by_cases h1 : p ≠ n ∧ p ∉ K ∧ n ∉ K ∧ (∀ q ∈ par n, q ∈ K)
        · refine ((Filter.eventually_all_finset _).2 (fun f hf => ?_)).mono (fun k hk _ _ _ _ => hk)
          exact hquiet n hn p hp h1.1 K hK h1.2.1 h1.2.2.1 h1.2.2.2 f ((Set.Finite.mem_toFinset _).1 hf).1
        · exact Filter.Eventually.of_forall (fun k a b d e => absurd ⟨a, b, d, e⟩ h1)
    · by_cases h1 : n ∉ K
      · refine ((Filter.eventually_all_finset _).2 (fun f hf => ?_)).mono (fun k hk _ => hk)
        exact hrich n hn K hK h1 f ((Set.Finite.mem_toFinset _).1 hf).1
      · exact Filter.Eventually.of_forall (fun k a => absurd a h1)
  obtain ⟨k, hk⟩ := hall.exists
  refine ⟨k, ?_⟩
  have hres : ∀ a : Label → Nat, (∀ q, a q < c) → (fun q => if q ∈ s.labels then a q else 0) ∈ (assignments_finite s.labels c).toFinset := by
    intro a ha
    rw [Set.Finite.mem_toFinset]
    refine ⟨fun q => ?_, fun q hq => if_neg hq⟩
    dsimp only
    split_ifs
    · exact ha q
    · exact hc0
  have key : ∀ child c' p K, s.getStatesNumber child = .ok c' → ValidTest ⟨s, s.total, ts k, independenceTest (Q k)⟩ p child K →
      c' = c ∧ CBEnv.TestArgs ⟨s, s.total, ts k, independenceTest (Q k)⟩ p child K := by
    intro child c' p K hcs hv
    have := uniform_card hw (hU k).cards hv.child_mem
    rw [hcs] at this
    exact ⟨by injection this, ⟨hw, hv.p_mem, hv.child_mem, hv.S_mem, hv.p_ne, hv.p_notin, hv.child_notin⟩⟩
  have hnm : ∀ child p K, ValidTest ⟨s, s.total, ts k, independenceTest (Q k)⟩ p child K → CBEnv.TestArgs ⟨s, s.total, ts k, independenceTest (Q k)⟩ p child K →
      ∀ a : Label → Nat, (∀ q, a q < c) → ¬ Scarce (Q k) c (given s (ts k) child c K a).count ((c - 1) ^ 2 * c * c ^ (ordered s K).length) := by
    intro child p K hv ha a haa
    have := (hk child (List.mem_toFinset.2 hv.child_mem) (ordered s K) (List.mem_toFinset.2 (hord K))).2 (hnot hv.child_notin) _ (hres a haa)
    rw [← given_restrict, given_ordered] at this
    have e : ordered s (ordered s K) = ordered s K := ordered_congr (fun l hl => by unfold ordered; rw [List.mem_filter]; simp [hl])
    rwa [e] at this
  have hnomark : ∀ child p K, ValidTest ⟨s, s.total, ts k, independenceTest (Q k)⟩ p child K → CBEnv.TestArgs ⟨s, s.total, ts k, independenceTest (Q k)⟩ p child K →
      freshVerdict ⟨s, s.total, ts k, independenceTest (Q k)⟩ child c p K = .ok .accept ∨ freshVerdict ⟨s, s.total, ts k, independenceTest (Q k)⟩ child c p K = .ok .reject := by
    intro child p K hv ha
    obtain ⟨v, hver⟩ := freshVerdict_answers (hU k).test ha (hU k).total (hU k).data hc0 (hU k).cards
    cases v with
    | accept => exact .inl hver
    | reject => exact .inr hver
    | rejectMark =>
      obtain ⟨a, ha1, ha2⟩ := complete_test_marks_only_if (hU k) ha hver
      exact absurd ha2 (hnm child p K hv ha a ha1)
  refine ⟨fun child c' p K hcs hv ht => ?_, fun child c' p K hcs hv ht hsup => ?_, fun child c' p K hcs hv ht => ?_⟩
  · obtain ⟨rfl, ha⟩ := key child c' p K hcs hv
    rcases hnomark child p K hv ha with h | h
    · exfalso
      obtain ⟨a, ha1, ha2⟩ := ((hk child (List.mem_toFinset.2 hv.child_mem) (ordered s K) (List.mem_toFinset.2 (hord K))).1 p (List.mem_toFinset.2 hv.p_mem)).1 ht
        (hnot hv.p_notin) (hnot hv.child_notin)
      rw [given_ordered, given_ordered_cons] at ha2
      exact ((complete_test_accepts_iff (hU k) ha).1 h a ha1).2 ha2
    · exact .inl h
  · obtain ⟨rfl, ha⟩ := key child c' p K hcs hv
    refine (complete_test_accepts_iff (hU k) ha).2 (fun a haa => ⟨fun hsc => ?_, fun htold => ?_⟩)
    · have h2 := hsc.1
      rw [if_pos h2] at hsc
      exact hnm child p K hv ha a haa hsc
    · have := ((hk child (List.mem_toFinset.2 hv.child_mem) (ordered s K) (List.mem_toFinset.2 (hord K))).1 p (List.mem_toFinset.2 hv.p_mem)).2 hv.p_ne
        (hnot hv.p_notin) (hnot hv.child_notin) (hin (fun q hq => hsup q (hparl child q hq).1 (hparl child q hq).2 ((hpar q child).1 hq))) _ (hres a haa)
      rw [← given_restrict, ← given_restrict, given_ordered, given_ordered_cons] at this
      exact this htold
  · obtain ⟨rfl, ha⟩ := key child c' p K hcs hv
    exact hnomark child p K hv ha

/-- If the limits are those of `truth`, then at shrinking levels all tests are right about `truth` on large data close enough to the limits. -/
theorem tests_right_if_close {s : Structure} {c : Nat} (hc2 : 2 ≤ c) {Q : ℝ → IndepParams} (hQ : LevelsTighten Q c) {truth : Finset Edge}
    {par : Label → List Label} (hpar : ∀ p n, p ∈ par n ↔ (p, n) ∈ truth) (hparl : ∀ n, ∀ q ∈ par n, q ∈ s.labels ∧ q ≠ n)
    {S : Label → List Label → Nat → List Nat → ℝ} {μ ρ : Label → List Label → Nat → Nat → List Nat → ℝ}
    (hS : ∀ n ∈ s.labels, ∀ L ∈ s.labels.sublists, n ∉ L → ∀ f : Label → Nat, (∀ q, f q < c) → ∀ x < c, 0 < S n L x (L.map f))
    (hμ : ∀ n ∈ s.labels, ∀ L ∈ s.labels.sublists, n ∉ L → ∀ f : Label → Nat, (∀ q, f q < c) → ∀ x < c, ∀ y < c, y ≠ x → 0 < μ n L x y (L.map f))
    (hρ : ∀ n ∈ s.labels, ∀ L ∈ s.labels.sublists, n ∉ L → (∀ q ∈ par n, q ∈ L) → ∀ f : Label → Nat, (∀ q, f q < c) → ∀ x < c, ∀ y < c, y ≠ x →
      0 < ρ n L x y (L.map f))
    (hdep : ∀ n ∈ s.labels, ∀ L ∈ s.labels.sublists, ∀ L' ∈ s.labels.sublists, (∀ q ∈ par n, q ∈ L) → (∀ q ∈ par n, q ∈ L') → ∀ f : Label → Nat, ∀ x y,
      ρ n L x y (L.map f) = ρ n L' x y (L'.map f))
    (hmat : ∀ p n, (p, n) ∈ truth → ∀ K : List Label, (∀ q ∈ K, q ∈ s.labels) → p ∉ K → n ∉ K → ∃ f : Label → Nat, (∀ q, f q < c) ∧ ∃ x y, x < c ∧ y < c ∧ y ≠ x ∧
      μ n (ordered s K) x y ((ordered s K).map f) / S n (ordered s K) x ((ordered s K).map f) ≠
        μ n (ordered s (p :: K)) x y ((ordered s (p :: K)).map f) / S n (ordered s (p :: K)) x ((ordered s (p :: K)).map f)) :
    ∃ ε > 0, ∃ m₀ : ℝ, ∀ m, m₀ ≤ m → ∀ t, UniformRun ⟨s, s.total, t, independenceTest (Q m)⟩ (Q m) c → CloseTo s c par S μ ρ m ε t →
      PerfectTests ⟨s, s.total, t, independenceTest (Q m)⟩ (fun p n => (p, n) ∈ truth) := by
  by_contra hcon
  push Not at hcon
  choose m hm ts hU hclose hbad using fun k : ℕ => hcon (1 / ((k : ℝ) + 1)) (by positivity) k
  have hN : Tendsto (fun k => m k) atTop atTop := tendsto_atTop_mono hm tendsto_natCast_atTop_atTop
  obtain ⟨k, hk⟩ := tests_right_seq hc2 (hQ.along hN) hN hpar hparl hS hμ hρ hdep hmat tendsto_one_div_add_atTop_nhds_zero_nat hU hclose
  exact hbad k hk

/-- As `tests_right_if_close`, along a sequence of tests. -/
theorem tests_right_along {s : Structure} {c : Nat} (hc2 : 2 ≤ c) {Q : ℕ → IndepParams} {m h : ℕ → ℝ} (hQ : LevelsAlong Q m h c) (hN : Tendsto m atTop atTop) {truth : Finset Edge}
    {par : Label → List Label} (hpar : ∀ p n, p ∈ par n ↔ (p, n) ∈ truth) (hparl : ∀ n, ∀ q ∈ par n, q ∈ s.labels ∧ q ≠ n)
    {S : Label → List Label → Nat → List Nat → ℝ} {μ ρ : Label → List Label → Nat → Nat → List Nat → ℝ}
    (hS : ∀ n ∈ s.labels, ∀ L ∈ s.labels.sublists, n ∉ L → ∀ f : Label → Nat, (∀ q, f q < c) → ∀ x < c, 0 < S n L x (L.map f))
    (hμ : ∀ n ∈ s.labels, ∀ L ∈ s.labels.sublists, n ∉ L → ∀ f : Label → Nat, (∀ q, f q < c) → ∀ x < c, ∀ y < c, y ≠ x → 0 < μ n L x y (L.map f))
    (hρ : ∀ n ∈ s.labels, ∀ L ∈ s.labels.sublists, n ∉ L → (∀ q ∈ par n, q ∈ L) → ∀ f : Label → Nat, (∀ q, f q < c) → ∀ x < c, ∀ y < c, y ≠ x →
      0 < ρ n L x y (L.map f))
    (hdep : ∀ n ∈ s.labels, ∀ L ∈ s.labels.sublists, ∀ L' ∈ s.labels.sublists, (∀ q ∈ par n, q ∈ L) → (∀ q ∈ par n, q ∈ L') → ∀ f : Label → Nat, ∀ x y,
      ρ n L x y (L.map f) = ρ n L' x y (L'.map f))
    (hmat : ∀ p n, (p, n) ∈ truth → ∀ K : List Label, (∀ q ∈ K, q ∈ s.labels) → p ∉ K → n ∉ K → ∃ f : Label → Nat, (∀ q, f q < c) ∧ ∃ x y, x < c ∧ y < c ∧ y ≠ x ∧
      μ n (ordered s K) x y ((ordered s K).map f) / S n (ordered s K) x ((ordered s K).map f) ≠
        μ n (ordered s (p :: K)) x y ((ordered s (p :: K)).map f) / S n (ordered s (p :: K)) x ((ordered s (p :: K)).map f)) :
    ∃ ε > 0, ∀ᶠ k in atTop, ∀ t, UniformRun ⟨s, s.total, t, independenceTest (Q k)⟩ (Q k) c → CloseScale s c par S μ ρ (m k) (h k) ε t →
      PerfectTests ⟨s, s.total, t, independenceTest (Q k)⟩ (fun p n => (p, n) ∈ truth) := by
  by_contra hcon
  push Not at hcon
  have hex : ∀ i : ℕ, ∃ k ≥ i, ∃ t, UniformRun ⟨s, s.total, t, independenceTest (Q k)⟩ (Q k) c ∧ CloseScale s c par S μ ρ (m k) (h k) (1 / ((i : ℝ) + 1)) t ∧
      ¬ PerfectTests ⟨s, s.total, t, independenceTest (Q k)⟩ (fun p n => (p, n) ∈ truth) := by
    intro i
    obtain ⟨k, hk, t, h1, h2, h3⟩ := Filter.frequently_atTop.1 (hcon (1 / ((i : ℝ) + 1)) (by positivity)) i
    exact ⟨k, hk, t, h1, h2, h3⟩
  choose j hj ts hU hclose hbad using hex
  have hj' : Tendsto j atTop atTop := tendsto_atTop_mono hj tendsto_id
  obtain ⟨k, hk⟩ := tests_right_seq hc2 (hQ.sub hj') (hN.comp hj') hpar hparl hS hμ hρ hdep hmat tendsto_one_div_add_atTop_nhds_zero_nat hU hclose
  exact hbad k hk

/-! ## C221 -/

/-- Importing the rows and constraint-based estimation with the prior knowledge `known` return, sequentially and in parallel with every order of completion, a list of exactly
the edges of `N`, each once. -/
def FindsEdges (N : Ctbn) (es : List Edge) (P : IndepParams) (known : List Edge) (raws : List RawTraj) : Prop :=
  ∃ (p : SamplePath) (s : Structure) (t : Trajectory), buildFromRaw (raws.map (SampleNet.frame N.vars)) ⟨List.range N.vars.length, N.vars, N.vars.map N.card⟩ es = .ok p ∧
    p.struct = some s ∧ p.trajectories = some t ∧
    ∃ (M : List (List Bool)) (es' : List Edge), buildRemovable s s.total known = .ok M ∧ ((⟨s, s.total, t, independenceTest P⟩ : CBEnv).ctpcSequential ⟨[], M⟩).1 = .ok es' ∧
      (∀ order : List Label, order.Perm N.vars → ((⟨s, s.total, t, independenceTest P⟩ : CBEnv).ctpcParallel ⟨[], M⟩ order).1 = .ok es') ∧
      es'.Nodup ∧ ∀ e, e ∈ es' ↔ e ∈ N.edges

section
variable {net : SampleNet} {N : Ctbn} (hD : Describes net N) (hOK : N.OK)
include hD hOK
variable {U : Type} [MeasurableSpace U] {P : Measure U} [IsProbabilityMeasure P] (C : Categorical U P)

/-- Constraint-based estimation at levels that shrink with the size finds exactly the edges of the network on typical rows. -/
theorem typical_edges_found {Ω ι : Type} [MeasurableSpace Ω] {μ : Measure Ω} {l : Filter ι} {size : ι → ℝ} {k : ℝ} {rows : ι → Ω → List RawTraj} {π : List Nat → ℝ}
    (hrows : TypicalRows N π μ l size k rows) (hcl : NoSuffixClash N.vars) (hT : "Time" ∉ N.vars) (hc : N.Conservative) (hpos : N.AllPositive) {c : Nat} (hc2 : 2 ≤ c)
    (hcard : ∀ v ∈ N.vars, N.card v = c) (hns : ∀ v ∈ N.vars, v ∉ N.parents v) (hπ : Stationary N N.inverseRates π)
    (hmat : ∀ n ∈ N.vars, ∀ p ∈ N.parents n, ∀ K : List Label, (∀ q ∈ K, q ∈ N.vars) → p ∉ K → n ∉ K → StationaryMatters N N.inverseRates π n K p)
    (es : List Edge) {Q : ℝ → IndepParams} (hQ : LevelsTighten Q c) {known : List Edge} (hknown : ∀ e ∈ known, e ∈ N.edges) :
    Likely μ l (fun m ω => FindsEdges N es (Q (size m)) known (rows m ω)) := by
  have hirr := irreducible_of_allPositive hOK hpos
  have hpace := hrows.pos
  set s := builtStruct N.vars (N.vars.map N.card) es with hs
  have hc0 : 0 < c := by omega
  have hfr : ∀ f : Label → Nat, (∀ q, f q < c) → ∀ q ∈ N.vars, f q < N.card q := fun f hf q hq => by rw [hcard q hq]; exact hf q
  let par : Label → List Label := fun n => if n ∈ N.vars then N.parents n else []
  have hparv : ∀ n ∈ N.vars, par n = N.parents n := fun n hn => if_pos hn
  have hsl : ∀ L ∈ N.vars.sublists, ∀ q ∈ L, q ∈ N.vars := fun L hL q hq => (List.mem_sublists.1 hL).subset hq
  obtain ⟨ε, hε, m₀, hperf⟩ := tests_right_if_close (s := s) hc2 hQ (truth := N.edges) (par := par)
    (fun p n => by
      rw [mem_edges]
      by_cases hn : n ∈ N.vars
      · rw [hparv n hn]; simp [hn]
      · simp [par, hn])
    (fun n q hq => by
      by_cases hn : n ∈ N.vars
      · rw [hparv n hn] at hq
        exact ⟨hOK.closed n hn q hq, by rintro rfl; exact hns _ hn hq⟩
      · simp [par, hn] at hq)
    (S := fun n L x u => share N π n L x u / k) (μ := fun n L x y u => flux N N.inverseRates π n L x y u / k)
    (ρ := fun n L x y u => N.inverseAt n (N.parentPart n L u) x y)
    (fun n hn L hL hnL f hf x hx => div_pos (share_positive hD hOK hc hirr hπ hn (hsl L hL) hnL (hfr f hf) (by rw [hcard n hn]; exact hx)) hpace)
    (fun n hn L hL hnL f hf x hx y hy hyx => div_pos (flux_positive hD hOK hc hpos hπ hn (hsl L hL) hnL (hfr f hf) (by rw [hcard n hn]; exact hx)
      (by rw [hcard n hn]; exact hy) hyx) hpace)
    (fun n hn L hL hnL hP f hf x hx y hy hyx => by
      rw [hparv n hn] at hP
      rw [parentPart_map N n hP]
      exact inverseAt_positive hOK hc hpos hD hn (hns n hn) (hfr f hf) (by rw [hcard n hn]; exact hx) (by rw [hcard n hn]; exact hy) hyx)
    (fun n hn L hL L' hL' hP hP' f x y => by
      rw [hparv n hn] at hP hP'
      rw [parentPart_map N n hP, parentPart_map N n hP'])
    (fun p n he K hK hpK hnK => by
      obtain ⟨h1, h2⟩ := mem_edges.1 he
      have hp := hOK.closed n h1 p h2
      obtain ⟨f, hf, x, y, hx, hy, hyx, hne⟩ := matters_beyond hD hOK hpK (hmat n h1 p h2 K hK hpK hnK)
      rw [hcard n h1] at hx hy
      refine ⟨fun q => if q ∈ N.vars then f q else 0, fun q => ?_, x, y, hx, hy, hyx, ?_⟩
      · dsimp only
        split_ifs with hq
        · rw [← hcard q hq]; exact hf q hq
        · exact hc0
      · have hmem : ∀ K' : List Label, (∀ q ∈ K', q ∈ N.vars) → ∀ q, q ∈ ordered s K' ↔ q ∈ K' := fun K' hK' q => by
          unfold ordered
          rw [List.mem_filter, decide_eq_true_eq]
          exact ⟨fun h => h.2, fun h => ⟨hK' q h, h⟩⟩
        have hmap : ∀ K' : List Label, (∀ q ∈ K', q ∈ N.vars) → K'.map (fun q => if q ∈ N.vars then f q else 0) = K'.map f := fun K' hK' =>
          List.map_congr_left (fun q hq => if_pos (hK' q hq))
        have hpK' : ∀ q ∈ p :: K, q ∈ N.vars := by
          intro q hq
          rcases List.mem_cons.1 hq with rfl | hq
          · exact hp
          · exact hK q hq
        rw [share_congr N π n (hmem K hK), share_congr N π n (hmem _ hpK'), flux_congr N _ π n (hmem K hK), flux_congr N _ π n (hmem _ hpK'), hmap K hK, hmap _ hpK',
          div_div_div_cancel_right₀ hpace.ne', div_div_div_cancel_right₀ hpace.ne']
        exact hne)
  -- the statistics of the rows are close, the rows usable
  have hclose : Likely μ l (fun m ω => ∀ n, n ∈ N.vars → ∀ L, L ∈ N.vars.sublists → ∀ u, u ∈ assignments (L.map (fun _ => c)) → ∀ x, x < c →
      |(rawResidence N.vars (rows m ω) n L x u : ℝ) / size m - share N π n L x u / k| < ε ∧ ∀ y, y < c → y ≠ x →
      |(rawTransitions N.vars (rows m ω) n L x y u : ℝ) / size m - flux N N.inverseRates π n L x y u / k| < ε ∧
      ((∀ p ∈ par n, p ∈ L) → ((rawTransitions N.vars (rows m ω) n L x y u : ℝ)
        - N.inverseAt n (N.parentPart n L u) x y * (rawResidence N.vars (rows m ω) n L x u : ℝ)) ^ 2 / (size m * Real.log (size m)) < ε)) := by
    refine Likely.all (mem_list_finite _) (fun n hn => Likely.all (mem_list_finite _) (fun L hL => Likely.all (mem_list_finite _) (fun u hu =>
      Likely.all (Set.finite_lt_nat c) (fun x hx => ?_))))
    obtain ⟨g1, g2⟩ := hrows.close hε hn (hsl L hL) x u
    refine g1.and (Likely.all (Set.finite_lt_nat c) (fun y hy => Likely.imp (fun hyx => ?_)))
    obtain ⟨g3, g4⟩ := g2 y (by rw [hcard n hn]; exact hy) hyx
    rw [hparv n hn]
    exact g3.and (Likely.imp g4)
  refine (hclose.and hrows.usable).mono ?_
  filter_upwards [hrows.grows.eventually_ge_atTop m₀] with m hm ω ⟨h1, h2⟩
  obtain ⟨⟨p, p1, p2, p3⟩, hdata, hstat⟩ := usable_builds hOK hcl hT hcard h2 es
  have hd : DataOK s (builtTraj N.vars (rows m ω)) := ⟨hdata.data.origCols, hdata.data.len, hdata.data.width, hdata.data.idx_lt, hdata.data.cur, hdata.data.nxt⟩
  have hw : WFStructure s := ⟨hdata.wf.1, hdata.wf.2, hdata.wf.3⟩
  have hrun : UniformRun ⟨s, s.total, builtTraj N.vars (rows m ω), independenceTest (Q (size m))⟩ (Q (size m)) c :=
    ⟨rfl, hw, hd, hdata.cards, hc0, rfl, List.nodup_range⟩
  have hP := hperf _ hm _ hrun (fun n hn L hL u hu x hx => by
    obtain ⟨g1, g2⟩ := h1 n hn L hL u hu x hx
    rw [(hstat n hn L (hsl L hL) x u).1]
    refine ⟨g1, fun y hy hyx => ?_⟩
    rw [(hstat n hn L (hsl L hL) x u).2 y]
    exact g2 y hy hyx)
  have hidx : ∀ i ∈ s.indexes, i < s.total := fun i hi => List.mem_range.1 hi
  have hnet : ∀ e ∈ N.edges.toList, e.1 ∈ s.labels ∧ e.2 ∈ s.labels ∧ e.1 ≠ e.2 := by
    rintro ⟨q, n⟩ he
    obtain ⟨a1, a2⟩ := mem_edges.1 (Finset.mem_toList.1 he)
    refine ⟨hOK.closed n a1 q a2, a1, ?_⟩
    intro e
    have e : q = n := e
    subst e
    exact hns _ a1 a2
  obtain ⟨M, hM⟩ := (removable_matrix_built_iff (s := s) s.total known).2 (fun e he => by
    obtain ⟨a1, a2, -⟩ := hnet e (Finset.mem_toList.2 (hknown e he))
    obtain ⟨i, hi, hi'⟩ := getNodeIndx_mem hw a1
    obtain ⟨j, hj, hj'⟩ := getNodeIndx_mem hw a2
    exact ⟨i, j, hi', hj', hidx i hi, hidx j hj⟩)
  obtain ⟨es', e0, e1, e2⟩ := constraint_based_recovers_exactly (net := N.edges.toList) hw List.nodup_range hidx rfl hnet (Finset.nodup_toList _)
    (by simpa only [Finset.mem_toList] using hP) (known := known) (fun e he => Finset.mem_toList.2 (hknown e he)) hM
  exact ⟨p, s, _, p1, p2, p3, M, es', hM, e1, e2, e0.nodup_iff.2 (Finset.nodup_toList _), fun e => by rw [e0.mem_iff, Finset.mem_toList]⟩

/-- **C221** Long sampled trajectories let constraint-based estimation find the network exactly, when the significance levels shrink with the length: `A m` for the tests of
the times, `B m` for those of the transitions, as small as some power of the length but not as small as its inverse.  All variables have `c ≥ 2` states, every variable
can always move to each of its other states, no variable is its own parent, and every parent tells.  Then the probability that importing `K` trajectories
sampled with `max_tr = m`, or `t_end = m`, and constraint-based estimation with scipy's quantiles do not return exactly the edges of the network sampled tends to 0. -/
theorem network_found (hcl : NoSuffixClash N.vars) (hT : "Time" ∉ N.vars) (hc : N.Conservative) (hpos : N.AllPositive) {c : Nat} (hc2 : 2 ≤ c)
    (hcard : ∀ v ∈ N.vars, N.card v = c) (hns : ∀ v ∈ N.vars, v ∉ N.parents v) (htell : ∀ n ∈ N.vars, ∀ p ∈ N.parents n, Tells N p n)
    (es : List Edge) {A B : ℝ → ℝ} (hA : ShrinkingLevel A) (hB : ShrinkingLevel B) (thr : ℝ) {known : List Edge} (hknown : ∀ e ∈ known, e ∈ N.edges) {K : Nat} (hK : 0 < K) :
    Tendsto (fun m : ℕ => manyLaw N.vars.length P {ω | ¬ FindsEdges N es (scipyParams (A m) (B m) thr) known (pooledRows net C m K ω)}) atTop (𝓝 0) ∧
    Tendsto (fun T : ℝ => manyLaw N.vars.length P {ω | ¬ FindsEdges N es (scipyParams (A T) (B T) thr) known (pooledEnd net C T K ω)}) atTop (𝓝 0) := by
  have hirr := irreducible_of_allPositive hOK hpos
  obtain ⟨π, hπ, -⟩ := sample_stationary hD hOK hc hirr
  have hmat : ∀ n ∈ N.vars, ∀ p ∈ N.parents n, ∀ K : List Label, (∀ q ∈ K, q ∈ N.vars) → p ∉ K → n ∉ K → StationaryMatters N N.inverseRates π n K p :=
    (fun n hn p hp K hK hpK hnK => tells_matters hD hOK hc hirr hπ hn hp (by rintro rfl; exact hns _ hn hp) (htell n hn p hp) hK hpK hnK)
  have hQ := scipy_levels hA hB thr hc2
  exact ⟨typical_edges_found hD hOK (many_typical hD hOK C hc hirr hπ hK) hcl hT hc hpos hc2 hcard hns hπ hmat es hQ hknown,
    typical_edges_found hD hOK (many_end_typical hD hOK C hc hirr hπ hK) hcl hT hc hpos hc2 hcard hns hπ hmat es hQ hknown⟩

/-- **C221** (from the stationary process).  A single trajectory, with the weaker condition that in the stationary process every parent matters to its child whatever other
variables are taken into account. -/
theorem sampled_network_found (hcl : NoSuffixClash N.vars) (hT : "Time" ∉ N.vars) (hc : N.Conservative) (hpos : N.AllPositive) {c : Nat} (hc2 : 2 ≤ c)
    (hcard : ∀ v ∈ N.vars, N.card v = c) (hns : ∀ v ∈ N.vars, v ∉ N.parents v) {π : List Nat → ℝ} (hπ : Stationary N N.inverseRates π)
    (hmat : ∀ n ∈ N.vars, ∀ p ∈ N.parents n, ∀ K : List Label, (∀ q ∈ K, q ∈ N.vars) → p ∉ K → n ∉ K → StationaryMatters N N.inverseRates π n K p)
    (es : List Edge) {A B : ℝ → ℝ} (hA : ShrinkingLevel A) (hB : ShrinkingLevel B) (thr : ℝ) {known : List Edge} (hknown : ∀ e ∈ known, e ∈ N.edges) :
    Tendsto (fun m : ℕ => drawLaw N.vars.length P {ω | ¬ FindsEdges N es (scipyParams (A m) (B m) thr) known [sampledRows net C m ω]}) atTop (𝓝 0) ∧
    Tendsto (fun T : ℝ => drawLaw N.vars.length P {ω | ¬ FindsEdges N es (scipyParams (A T) (B T) thr) known [endRows net C T ω]}) atTop (𝓝 0) := by
  have hirr := irreducible_of_allPositive hOK hpos
  have hQ := scipy_levels hA hB thr hc2
  exact ⟨typical_edges_found hD hOK (sampled_typical hD hOK C hc hirr hπ) hcl hT hc hpos hc2 hcard hns hπ hmat es hQ hknown,
    typical_edges_found hD hOK (end_typical hD hOK C hc hirr hπ) hcl hT hc hpos hc2 hcard hns hπ hmat es hQ hknown⟩

end

/-! ## Non-vacuity -/

namespace Demo

/-- `1 / √s` shrinks as required. -/
theorem root_shrinks : ShrinkingLevel (fun s => 1 / Real.sqrt s) where
  small := ⟨1 / 2, by norm_num, by
    filter_upwards [eventually_gt_atTop 0] with s hs
    refine ⟨by positivity, le_of_eq ?_⟩
    rw [Real.rpow_neg hs.le, Real.sqrt_eq_rpow, one_div]⟩
  slow := by
    refine tendsto_atTop_mono' _ ?_ (Real.tendsto_sqrt_atTop)
    filter_upwards [eventually_gt_atTop 0] with s hs
    rw [mul_one_div, Real.div_sqrt]

/-- C221: from ten long trajectories of `X → Y`, and knowing or not knowing the edge, at the levels `1 / √m` exactly this edge is found. -/
example (known : List Edge) (hk : known = [] ∨ known = [("X", "Y")]) : Tendsto (fun m : ℕ => manyLaw 2 (Measure.infinitePi choiceLaw)
      {ω | ¬ FindsEdges pairCtbn [] (scipyParams (1 / Real.sqrt m) (1 / Real.sqrt m) 5) known (pooledRows pairNet someCategorical m 10 ω)}) atTop (𝓝 0) :=
  (network_found pair_describes pair_ok someCategorical (by unfold NoSuffixClash; decide) (by decide) pair_conservative pair_allPositive (le_refl 2) (fun _ _ => rfl)
    (by decide) pair_parents_tell [] root_shrinks root_shrinks 5 (known := known)
    (by rw [pair_edges]; rcases hk with rfl | rfl <;> simp) (by norm_num : 0 < 10)).1

example : Tendsto (fun T : ℝ => drawLaw 2 (Measure.infinitePi choiceLaw)
      {ω | ¬ FindsEdges pairCtbn [] (scipyParams (1 / Real.sqrt T) (1 / Real.sqrt T) 5) [] [endRows pairNet someCategorical T ω]}) atTop (𝓝 0) :=
  (sampled_network_found pair_describes pair_ok someCategorical (by unfold NoSuffixClash; decide) (by decide) pair_conservative pair_allPositive (le_refl 2) (fun _ _ => rfl)
    (by decide) pair_stationary pair_matters [] root_shrinks root_shrinks 5 (known := []) (by simp)).2

end Demo

end

end PyCTBN
