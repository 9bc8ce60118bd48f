import Verif.Props.EndTime
import Verif.Spec.PooledRows
import Mathlib.Probability.StrongLaw
import Mathlib.Probability.Independence.InfinitePi

/-!
# Pooling many short trajectories: C206, C207
-/

open MeasureTheory ProbabilityTheory Filter
open scoped ENNReal Topology

namespace PyCTBN
open Spec JumpPaths

noncomputable section

/-! ## Independent repetitions -/

/-- The law of large numbers for independent repetitions. -/
theorem repetitions_mean {Ω : Type} [MeasurableSpace Ω] {μ : Measure Ω} [IsProbabilityMeasure μ] {F : Ω → ℝ} (hF : Integrable F μ) :
    ∀ᵐ ω ∂Measure.infinitePi (fun _ : ℕ => μ), Tendsto (fun k : ℕ => (∑ i ∈ Finset.range k, F (ω i)) / k) atTop (𝓝 (∫ a, F a ∂μ)) := by
  obtain ⟨G, hG, hFG⟩ := hF.1
  have hGm : Measurable G := hG.measurable
  have hev : ∀ i, MeasurePreserving (fun ω : ℕ → Ω => ω i) (Measure.infinitePi (fun _ : ℕ => μ)) μ := fun i => measurePreserving_eval_infinitePi _ i
  have hsame : ∀ᵐ ω ∂Measure.infinitePi (fun _ : ℕ => μ), ∀ i, F (ω i) = G (ω i) := by
    rw [ae_all_iff]
    intro i
    exact (hev i).quasiMeasurePreserving.ae hFG
  have hGi : Integrable G μ := hF.congr hFG
  have hident : ∀ i, IdentDistrib (fun ω : ℕ → Ω => G (ω i)) (fun ω : ℕ → Ω => G (ω 0)) (Measure.infinitePi (fun _ : ℕ => μ)) (Measure.infinitePi (fun _ : ℕ => μ)) := by
    intro i
    refine ⟨(hGm.comp (measurable_pi_apply i)).aemeasurable, (hGm.comp (measurable_pi_apply 0)).aemeasurable, ?_⟩
    have h : ∀ i, (Measure.infinitePi (fun _ : ℕ => μ)).map (fun ω : ℕ → Ω => G (ω i)) = μ.map G := by
      intro i
      rw [← (hev i).map_eq, Measure.map_map hGm (measurable_pi_apply i), (hev i).map_eq]
      rfl
    rw [h, h]
  have hind : iIndepFun (fun (i : ℕ) (ω : ℕ → Ω) => G (ω i)) (Measure.infinitePi (fun _ : ℕ => μ)) := iIndepFun_infinitePi (X := fun _ => G) (fun _ => hGm)
  have hlaw := strong_law_ae_real (μ := Measure.infinitePi (fun _ : ℕ => μ)) (fun i ω => G (ω i)) ((hev 0).integrable_comp_of_integrable hGi)
    (fun i j hij => hind.indepFun hij) hident
  have hmean : ∫ ω, G (ω 0) ∂Measure.infinitePi (fun _ : ℕ => μ) = ∫ a, F a ∂μ := by
    rw [integral_congr_ae hFG]
    have := integral_map (μ := Measure.infinitePi (fun _ : ℕ => μ)) (φ := fun ω : ℕ → Ω => ω 0) (measurable_pi_apply 0).aemeasurable (f := G)
      (by rw [(hev 0).map_eq]; exact hG.aestronglyMeasurable)
    rw [← this, (hev 0).map_eq]
  rw [hmean] at hlaw
  filter_upwards [hlaw, hsame] with ω h1 h2
  simpa only [h2] using h1

/-- A ratio of sums, each plus one. -/
theorem ratio_limit {M T : ℕ → ℝ} {a b : ℝ} (hb : 0 < b) (hM : Tendsto (fun k : ℕ => M k / k) atTop (𝓝 a)) (hT : Tendsto (fun k : ℕ => T k / k) atTop (𝓝 b)) :
    Tendsto (fun k => (M k + 1) / (T k + 1)) atTop (𝓝 (a / b)) := by
  have h1 : Tendsto (fun k : ℕ => (1 : ℝ) / k) atTop (𝓝 0) := tendsto_const_div_atTop_nhds_zero_nat 1
  have h2 := (hM.add h1).div (hT.add h1) (by rw [add_zero]; exact hb.ne')
  rw [add_zero, add_zero] at h2
  refine h2.congr' ?_
  filter_upwards [eventually_gt_atTop 0] with k hk
  have hk' : (k : ℝ) ≠ 0 := by exact_mod_cast hk.ne'
  rw [Pi.div_apply, ← add_div, ← add_div, div_div_div_cancel_right₀ hk']

/-! ## Statistics of several trajectories -/

theorem rawResidence_many (vars : List Label) (v : Label) (L : List Label) (x : Nat) (u : List Nat) (raws : List RawTraj) :
    rawResidence vars raws v L x u = (raws.map (fun r => rawResidence vars [r] v L x u)).sum := by
  induction raws with
  | nil => rfl
  | cons r raws ih =>
    rw [List.map_cons, List.sum_cons, ← ih]
    simp [rawResidence]

theorem rawTransitions_many (vars : List Label) (v : Label) (L : List Label) (x y : Nat) (u : List Nat) (raws : List RawTraj) :
    rawTransitions vars raws v L x y u = (raws.map (fun r => rawTransitions vars [r] v L x y u)).sum := by
  induction raws with
  | nil => rfl
  | cons r raws ih =>
    rw [List.map_cons, List.sum_cons, ← ih]
    simp [rawTransitions]

/-- The transitions on the rows are exactly the moves but the last. -/
theorem rows_transitions {N : Ctbn} (hOK : N.OK) {v : Label} (hv : v ∈ N.vars) {L : List Label} (hL : ∀ p ∈ L, p ∈ N.vars) {x y : Nat} (hxy : y ≠ x) (u : List Nat) (ms : List Move) :
    ∀ {t : ℝ} {vals : List Nat}, vals.length = N.vars.length →
      (rawTransitions N.vars [SampleNet.terminate (SampleNet.rowsOfMoves t vals ms)] v L x y u : ℝ)
        = listTotal (linStep (caseStep N v L x y u) (fun _ => 0)) vals t ms.dropLast := by
  induction ms with
  | nil =>
    intro t vals hlen
    rw [SampleNet.rowsOfMoves, terminate_single]
    simp [rawTransitions, consecutive, listTotal]
  | cons m ms ih =>
    intro t vals hlen
    have hlen' : (vals.set m.var m.target).length = N.vars.length := by rw [List.length_set]; exact hlen
    have i1 := ih (t := t + m.hold) hlen'
    obtain ⟨rs, hrs, hnil⟩ := rowsOfMoves_cons (t + m.hold) (vals.set m.var m.target) ms
    obtain ⟨b, l, hbl, hb1, hb2, hb3⟩ := terminate_head (round4R (t + m.hold), vals.set m.var m.target) rs
    have hcons : ([SampleNet.terminate (SampleNet.rowsOfMoves t vals (m :: ms))]).flatMap consecutive
        = (castRow (round4R t, vals), b) :: ([SampleNet.terminate (SampleNet.rowsOfMoves (t + m.hold) (vals.set m.var m.target) ms)]).flatMap consecutive := by
      rw [SampleNet.rowsOfMoves, hrs, terminate_cons₂, hbl]
      simp [consecutive_cons₂]
    have hmatch := rawMatches_cases (r := (round4R t, vals)) hlen hv hL x u
    dsimp only at hmatch
    have e : (rawTransitions N.vars [SampleNet.terminate (SampleNet.rowsOfMoves t vals (m :: ms))] v L x y u : ℝ)
        = rawTransitions N.vars [SampleNet.terminate (SampleNet.rowsOfMoves (t + m.hold) (vals.set m.var m.target) ms)] v L x y u
          + if Circumstances N v L x u vals ∧ rawState N.vars b v = some (y : ℤ) then 1 else 0 := by
      unfold rawTransitions
      rw [hcons, List.filter_cons]
      dsimp only
      rw [hmatch]
      by_cases hcase : Circumstances N v L x u vals ∧ rawState N.vars b v = some (y : ℤ)
      · rw [if_pos (by simp [hcase.1, hcase.2]), if_pos hcase, List.length_cons]
        push_cast
        rfl
      · rw [if_neg (by simpa using hcase), if_neg hcase, add_zero]
    rw [e]
    by_cases hms : ms = []
    · subst hms
      have hbs : rawState N.vars b v ≠ some (y : ℤ) := by
        unfold rawState
        rw [hb2 (hnil.2 rfl)]
        intro hh
        simp only [List.getElem?_map, Option.map_eq_some_iff] at hh
        obtain ⟨z, -, hz⟩ := hh
        omega
      have e0 : rawTransitions N.vars [SampleNet.terminate (SampleNet.rowsOfMoves (t + m.hold) (vals.set m.var m.target) [])] v L x y u = 0 := by
        rw [SampleNet.rowsOfMoves, terminate_single]
        simp [rawTransitions, consecutive]
      rw [if_neg (fun h => hbs h.2), e0]
      simp [listTotal]
    · have hbs : rawState N.vars b v = some ((N.state (vals.set m.var m.target) v : Nat) : ℤ) := by
        rw [hb3 (fun h => hms (hnil.1 h))]
        exact rawState_castRow hlen' hv
      have e1 : linStep (caseStep N v L x y u) (fun _ => 0) vals t ⟨m.var, m.target⟩ m.hold
          = if Circumstances N v L x u vals ∧ rawState N.vars b v = some (y : ℤ) then 1 else 0 := by
        unfold linStep caseStep
        rw [hbs, zero_mul, add_zero]
        refine if_congr ?_ rfl rfl
        refine and_congr_right (fun hcase => ?_)
        have := moved_iff hOK hlen hv hxy hcase.1 m
        dsimp only
        rw [← this]
        simp
      rw [List.dropLast_cons_of_ne_nil hms, listTotal, e1, i1, add_comm]

theorem circumstanceTime_eq (N : Ctbn) (v : Label) (L : List Label) (x : Nat) (u : List Nat) (ms : List Move) : ∀ (vals : List Nat) (t : ℝ),
    circumstanceTime N v L x u vals ms = listTotal (fun vals _ _ a => 0 + caseInd N v L x u vals * a) vals t ms := by
  induction ms with
  | nil => intros; rfl
  | cons m ms ih =>
    intro vals t
    rw [circumstanceTime, listTotal, ih _ (t + m.hold)]
    unfold caseInd
    split_ifs <;> simp

theorem listTotal_linear (b : List Nat → Step → ℝ) (w : List Nat → ℝ) (r : ℝ) (ms : List Move) : ∀ vals t,
    listTotal (fun vals _ s a => b vals s + -r * w vals * a) vals t ms
      = listTotal (linStep b (fun _ => 0)) vals t ms - r * listTotal (fun vals _ _ a => 0 + w vals * a) vals t ms := by
  induction ms with
  | nil => intros; simp [listTotal]
  | cons m ms ih => intro vals t; simp only [listTotal, ih, linStep]; ring

section
variable {net : SampleNet} {N : Ctbn} (hD : Describes net N) (hOK : N.OK)
include hD hOK
variable {U : Type} [MeasurableSpace U] {P : Measure U} [IsProbabilityMeasure P] (C : Categorical U P)

/-- The mean of a sum over the moves of a sampled trajectory. -/
theorem sampled_total_mean (hpos : N.Leaves) {e : Increment} {A : ℝ} (he : Tame N e A) (n : Nat) :
    Integrable (fun ω => listTotal e (N.vars.map (fun _ => 0)) 0 (sampledMoves (m := N.vars.length) net C n ω)) (drawLaw N.vars.length P) ∧
    ∫ ω, listTotal e (N.vars.map (fun _ => 0)) 0 (sampledMoves (m := N.vars.length) net C n ω) ∂drawLaw N.vars.length P
      = meanTotal N N.inverseRates e n (N.vars.map (fun _ => 0)) 0 := by
  have hU := usable_inverse hD hOK hpos
  have hr : N.InRange (N.vars.map (fun _ => 0)) := zeros_inRange hOK
  set zeros := N.vars.map (fun _ => 0) with hz
  have hm : ∀ L : List MoveEvent, L.length = n → Proper N L → MeasurableSet {ω | MovesAre (net.movesR n (drawsAt (m := N.vars.length) C ω) net.initClock) L} := by
    intro L hl hL; subst hl; exact measurable_moves hD hOK C hL
  have hl : ∀ L : List MoveEvent, L.length = n → Proper N L → drawLaw N.vars.length P {ω | MovesAre (net.movesR n (drawsAt C ω) net.initClock) L}
      = ENNReal.ofReal (jumpLaw N N.inverseRates L zeros) := by
    intro L hl hL; subst hl; exact sample_moves_law C hD hOK hpos hL
  have hstat : ∀ σ ∈ paths N n, ∀ ω ∈ onPath (fun ω => net.movesR n (drawsAt (m := N.vars.length) C ω) net.initClock) σ,
      listTotal e zeros 0 (sampledMoves (m := N.vars.length) net C n ω) = total e σ zeros 0 (holds n (movesOf (net.movesR n (drawsAt C ω) net.initClock))) := by
    intro σ _ ω hω
    simp only [onPath, Set.mem_ofPred_eq, movesAre_events] at hω
    obtain ⟨ms, a1, a2, a3, -⟩ := hω
    have e1 : sampledMoves net C n ω = ms := by unfold sampledMoves; rw [a1]; rfl
    rw [e1, listTotal_on_path _ σ zeros 0 ms a2 a3, a1]
    rfl
  exact expectation (μ := drawLaw N.vars.length P) hU hr hm hl hstat (fun σ hσ => integrable_total hU he hσ hr 0)

omit hD in
theorem tame_linStep {rate : Rates} (b : List Nat → Step → ℝ) (w : List Nat → ℝ) (hU : Usable N rate) : ∃ A, Tame N (linStep b w) A := by
  obtain ⟨A0, hA0⟩ := tame_simple hOK hU b w
  obtain ⟨Kw, hKw0, hKw⟩ := bounded_inRange hOK w
  have hA2 := tame_errorStep (N := N) hKw0 hKw measurable_roundError abs_roundError_le
  refine ⟨A0 + Kw * (2 * (1 / 20000)), ?_⟩
  have := hA0.add hA2
  convert this using 2
  funext t s a
  unfold errorStep linStep roundError
  ring

/-- The moves before the last are those of the shorter run. -/
theorem sampledMoves_dropLast (hpos : N.Leaves) (n : Nat) : ∀ᵐ ω ∂drawLaw N.vars.length P,
    (sampledMoves (m := N.vars.length) net C (n + 1) ω).dropLast = sampledMoves net C n ω ∧ (sampledMoves (m := N.vars.length) net C (n + 1) ω).length = n + 1 := by
  filter_upwards [sampled_moves_genuine hD hOK C hpos (n + 1)] with ω hω
  obtain ⟨ms, h1, h2, -⟩ := hω
  have e1 : sampledMoves net C (n + 1) ω = ms := by unfold sampledMoves movesOf; rw [h1]
  have e2 : sampledMoves net C n ω = ms.take n := by unfold sampledMoves movesOf; rw [movesR_take h1 (Nat.le_succ n)]
  rw [e1, e2, List.dropLast_eq_take, h2]
  exact ⟨rfl, rfl⟩

/-- **C206** (one trajectory).  The mean number of transitions seen on the rows of a trajectory sampled with `max_tr = n + 1`, given the states of the parents (and
possibly others), is the rate of the sampled process times the mean time spent before the last state. -/
theorem rows_transitions_mean (hc : N.Conservative) {v : Label} (hv : v ∈ N.vars) {L : List Label} (hL : ∀ p ∈ L, p ∈ N.vars)
    (hP : ∀ p ∈ N.parents v, p ∈ L) {x y : Nat} (hxy : y ≠ x) (hy : y < N.card v) (u : List Nat) (n : Nat) :
    Integrable (fun ω => (rawTransitions N.vars [sampledRows (m := N.vars.length) net C (n + 1) ω] v L x y u : ℝ)) (drawLaw N.vars.length P) ∧
    ∫ ω, (rawTransitions N.vars [sampledRows (m := N.vars.length) net C (n + 1) ω] v L x y u : ℝ) ∂drawLaw N.vars.length P
      = N.inverseAt v (N.parentPart v L u) x y * ∫ ω, circumstanceTime N v L x u (N.vars.map (fun _ => 0)) (sampledMoves (m := N.vars.length) net C n ω) ∂drawLaw N.vars.length P := by
  have hpos := leaves_of_conservative hD hOK hc
  have hU := usable_inverse hD hOK hpos
  have hr0 : N.InRange (N.vars.map (fun _ => 0)) := zeros_inRange hOK
  set r := N.inverseAt v (N.parentPart v L u) x y with hr
  obtain ⟨A1, hA1⟩ := tame_linStep hOK (caseStep N v L x y u) (fun _ => 0) hU
  obtain ⟨A2, hA2⟩ := tame_simple hOK hU (fun _ _ => 0) (caseInd N v L x u)
  obtain ⟨A3, hA3⟩ := tame_simple hOK hU (caseStep N v L x y u) (fun a => -r * caseInd N v L x u a)
  obtain ⟨i1, -⟩ := sampled_total_mean hD hOK C hpos hA1 n
  obtain ⟨i2, -⟩ := sampled_total_mean hD hOK C hpos hA2 n
  obtain ⟨i3, e3⟩ := sampled_total_mean hD hOK C hpos hA3 n
  have hzero : meanTotal N N.inverseRates (fun vals _ s a => caseStep N v L x y u vals s + -r * caseInd N v L x u vals * a) n (N.vars.map (fun _ => 0)) 0 = 0 := by
    have := meanTotal_bounded hU hA3 (g := fun _ => 0) (K := 0) (by simp) (fun vals hr s _ t => by
      have hR := hU.pos vals hr
      have hP := isProbabilityMeasure_expMeasure hR
      exact (integrable_const _).add ((Clocks.exp_integrable hR).const_mul _)) (fun vals hr t => by
      have hR := hU.pos vals hr
      have hPm := isProbabilityMeasure_expMeasure hR
      have e : ∀ s ∈ steps N, stepProb N N.inverseRates vals s * ∫ a, (caseStep N v L x y u vals s + -r * caseInd N v L x u vals * a) ∂expMeasure (totalRate N N.inverseRates vals)
          = N.inverseRates vals (N.vars.getD s.1 "") s.2 * caseStep N v L x y u vals s / totalRate N N.inverseRates vals
            + stepProb N N.inverseRates vals s * (-r * caseInd N v L x u vals / totalRate N N.inverseRates vals) := by
        intro s _
        rw [integral_add (integrable_const _) ((Clocks.exp_integrable hR).const_mul _), integral_const, integral_const_mul, Clocks.exp_mean hR]
        simp only [probReal_univ, one_smul]
        unfold stepProb
        ring
      rw [Finset.sum_congr rfl e, Finset.sum_add_distrib, ← Finset.sum_mul, sum_stepProb hU hr, ← Finset.sum_div, sum_caseStep hOK vals hv L x hy u]
      have hn : next N N.inverseRates (fun _ => 0) vals = 0 := by unfold next; simp
      rw [hn, sub_zero, one_mul, ← add_div]
      unfold caseInd
      split_ifs with hcase
      · rw [inverse_at hD hOK hc hv hxy hr (parentStates_of hP hcase)]
        simp only [r]; ring
      · simp) n hr0 0
    simpa using this
  rw [hzero] at e3
  have hae : (fun ω => (rawTransitions N.vars [sampledRows (m := N.vars.length) net C (n + 1) ω] v L x y u : ℝ))
      =ᵐ[drawLaw N.vars.length P] fun ω => listTotal (linStep (caseStep N v L x y u) (fun _ => 0)) (N.vars.map (fun _ => 0)) 0 (sampledMoves (m := N.vars.length) net C n ω) := by
    filter_upwards [sampledMoves_dropLast hD hOK C hpos n] with ω ⟨h1, h2⟩
    rcases sampledRows_eq C hD.vnames (n + 1) ω with h | ⟨-, h⟩
    · rw [h, rows_transitions hOK hv hL hxy u _ (by simp), h1]
    · rw [h] at h2; simp at h2
  refine ⟨i1.congr hae.symm, ?_⟩
  rw [integral_congr_ae hae]
  have e : ∀ ω, listTotal (fun vals _ s a => caseStep N v L x y u vals s + -r * caseInd N v L x u vals * a) (N.vars.map (fun _ => 0)) 0 (sampledMoves (m := N.vars.length) net C n ω)
      = listTotal (linStep (caseStep N v L x y u) (fun _ => 0)) (N.vars.map (fun _ => 0)) 0 (sampledMoves (m := N.vars.length) net C n ω)
        - r * circumstanceTime N v L x u (N.vars.map (fun _ => 0)) (sampledMoves (m := N.vars.length) net C n ω) := by
    intro ω
    rw [listTotal_linear, circumstanceTime_eq N v L x u _ _ 0]
  have i2' : Integrable (fun ω => circumstanceTime N v L x u (N.vars.map (fun _ => 0)) (sampledMoves (m := N.vars.length) net C n ω)) (drawLaw N.vars.length P) := by
    refine i2.congr (.of_forall (fun ω => ?_))
    exact (circumstanceTime_eq N v L x u _ _ 0).symm
  simp only [e] at e3
  rw [integral_sub i1 (i2'.const_mul r), integral_const_mul] at e3
  linarith

/-- The time on the rows of a trajectory sampled with `max_tr = n` has a mean, and is that of the moves up to the rounding of the stamps. -/
theorem rows_residence_mean (hc : N.Conservative) {v : Label} (hv : v ∈ N.vars) {L : List Label} (hL : ∀ p ∈ L, p ∈ N.vars) (x : Nat) (u : List Nat) (n : Nat) :
    Integrable (fun ω => (rawResidence N.vars [sampledRows (m := N.vars.length) net C n ω] v L x u : ℝ)) (drawLaw N.vars.length P) ∧
    |∫ ω, (rawResidence N.vars [sampledRows (m := N.vars.length) net C n ω] v L x u : ℝ) ∂drawLaw N.vars.length P
      - ∫ ω, circumstanceTime N v L x u (N.vars.map (fun _ => 0)) (sampledMoves (m := N.vars.length) net C n ω) ∂drawLaw N.vars.length P| ≤ n / 10000 := by
  have hpos := leaves_of_conservative hD hOK hc
  have hU := usable_inverse hD hOK hpos
  have hdraw : IsProbabilityMeasure (drawLaw N.vars.length P) := by unfold drawLaw; infer_instance
  obtain ⟨A1, hA1⟩ := tame_linStep hOK (fun _ _ => 0) (caseInd N v L x u) hU
  obtain ⟨A2, hA2⟩ := tame_simple hOK hU (fun _ _ => 0) (caseInd N v L x u)
  obtain ⟨i1, -⟩ := sampled_total_mean hD hOK C hpos hA1 n
  obtain ⟨i2, -⟩ := sampled_total_mean hD hOK C hpos hA2 n
  have e1 : ∀ ω, (rawResidence N.vars [sampledRows (m := N.vars.length) net C n ω] v L x u : ℝ)
      = listTotal (linStep (fun _ _ => 0) (caseInd N v L x u)) (N.vars.map (fun _ => 0)) 0 (sampledMoves (m := N.vars.length) net C n ω) :=
    fun ω => (sampledRows_sums hD hOK C hv hL (x := x) (y := x + 1) (by omega) u n ω).1
  have e2 : ∀ ω, circumstanceTime N v L x u (N.vars.map (fun _ => 0)) (sampledMoves (m := N.vars.length) net C n ω)
      = listTotal (fun vals _ _ a => 0 + caseInd N v L x u vals * a) (N.vars.map (fun _ => 0)) 0 (sampledMoves (m := N.vars.length) net C n ω) :=
    fun ω => circumstanceTime_eq N v L x u _ _ 0
  have hclose : ∀ (ms : List Move) (vals : List Nat) (t : ℝ), |listTotal (linStep (fun _ _ => 0) (caseInd N v L x u)) vals t ms
      - listTotal (fun vals _ _ a => 0 + caseInd N v L x u vals * a) vals t ms| ≤ ms.length / 10000 := by
    intro ms
    induction ms with
    | nil => intro vals t; simp [listTotal]
    | cons m ms ih =>
      intro vals t
      have h1 := abs_le.1 (ih (vals.set m.var m.target) (t + m.hold))
      have h2 := abs_le.1 (abs_roundError_le t)
      have h3 := abs_le.1 (abs_roundError_le (t + m.hold))
      unfold roundError at h2 h3
      simp only [listTotal, linStep, List.length_cons, Nat.cast_succ]
      have hw : caseInd N v L x u vals = 0 ∨ caseInd N v L x u vals = 1 := by unfold caseInd; split_ifs <;> simp
      rw [abs_le]
      rcases hw with hw | hw <;> rw [hw] <;> constructor <;> linarith [h1.1, h1.2, h2.1, h2.2, h3.1, h3.2]
  simp only [e1, e2]
  refine ⟨i1, ?_⟩
  rw [← integral_sub i1 i2]
  have key := norm_integral_le_of_norm_le_const (μ := drawLaw N.vars.length P) (C := (n : ℝ) / 10000)
    (f := fun ω => listTotal (linStep (fun _ _ => 0) (caseInd N v L x u)) (N.vars.map (fun _ => 0)) 0 (sampledMoves (m := N.vars.length) net C n ω)
      - listTotal (fun vals _ _ a => 0 + caseInd N v L x u vals * a) (N.vars.map (fun _ => 0)) 0 (sampledMoves (m := N.vars.length) net C n ω)) (.of_forall (fun ω => ?_))
  · rw [probReal_univ, mul_one] at key
    exact key
  refine (hclose _ _ _).trans ?_
  have := sampledMoves_length (net := net) C n ω
  have : ((sampledMoves (m := N.vars.length) net C n ω).length : ℝ) ≤ n := by exact_mod_cast this
  linarith

/-- The number of transitions on the rows has a mean. -/
theorem rows_transitions_integrable (hc : N.Conservative) {v : Label} (hv : v ∈ N.vars) {L : List Label} (hL : ∀ p ∈ L, p ∈ N.vars) {x y : Nat} (hxy : y ≠ x) (u : List Nat) (n : Nat) :
    Integrable (fun ω => (rawTransitions N.vars [sampledRows (m := N.vars.length) net C n ω] v L x y u : ℝ)) (drawLaw N.vars.length P) := by
  have hpos := leaves_of_conservative hD hOK hc
  have hU := usable_inverse hD hOK hpos
  have hdraw : IsProbabilityMeasure (drawLaw N.vars.length P) := by unfold drawLaw; infer_instance
  obtain ⟨A1, hA1⟩ := tame_linStep hOK (caseStep N v L x y u) (fun _ => 0) hU
  cases n with
  | zero =>
    refine (integrable_const (0 : ℝ)).congr (.of_forall (fun ω => ?_))
    dsimp only
    rcases sampledRows_eq C hD.vnames 0 ω with h | ⟨h, -⟩
    · rw [h, rows_transitions hOK hv hL hxy u _ (by simp)]; rfl
    · rw [h]; simp [rawTransitions, consecutive]
  | succ n =>
    refine (sampled_total_mean hD hOK C hpos hA1 n).1.congr ?_
    filter_upwards [sampledMoves_dropLast hD hOK C hpos n] with ω hω
    rcases sampledRows_eq C hD.vnames (n + 1) ω with h | ⟨-, h⟩
    · rw [h, rows_transitions hOK hv hL hxy u _ (by simp), hω.1]
    · rw [h] at hω; simp at hω

omit hD hOK in
/-- The rows of `k` calls of `CTBN_Sample(max_tr = n)`, one after the other. -/
def pooledRows (net : SampleNet) {m : Nat} (C : Categorical U P) (n k : Nat) (ω : ℕ → ℕ → (Fin m → ℝ) × U) : List RawTraj :=
  (List.range k).map (fun i => sampledRows net C n (ω i))

omit hD hOK in
theorem sum_range_list (f : ℕ → ℝ) (k : Nat) : ((List.range k).map f).sum = ∑ i ∈ Finset.range k, f i := rfl

/-- **C206** (any circumstances).  What the library estimates from `k` trajectories sampled with the same `max_tr` converges almost surely, as `k` grows, to the mean number of
transitions on the rows of one such trajectory divided by the mean time on its rows. -/
theorem pooled_estimate_mean (hc : N.Conservative) {v : Label} (hv : v ∈ N.vars) {L : List Label} (hL : ∀ p ∈ L, p ∈ N.vars) {x y : Nat} (hxy : y ≠ x) (u : List Nat) (n : Nat)
    (hR : 0 < ∫ ω, (rawResidence N.vars [sampledRows (m := N.vars.length) net C n ω] v L x u : ℝ) ∂drawLaw N.vars.length P) :
    ∀ᵐ ω ∂manyLaw N.vars.length P, Tendsto (fun k => ((rawTransitions N.vars (pooledRows net C n k ω) v L x y u : ℝ) + 1)
        / ((rawResidence N.vars (pooledRows net C n k ω) v L x u : ℝ) + 1)) atTop
      (𝓝 ((∫ ω, (rawTransitions N.vars [sampledRows (m := N.vars.length) net C n ω] v L x y u : ℝ) ∂drawLaw N.vars.length P)
        / ∫ ω, (rawResidence N.vars [sampledRows (m := N.vars.length) net C n ω] v L x u : ℝ) ∂drawLaw N.vars.length P)) := by
  have hpos := leaves_of_conservative hD hOK hc
  have hU := usable_inverse hD hOK hpos
  have hdraw : IsProbabilityMeasure (drawLaw N.vars.length P) := by unfold drawLaw; infer_instance
  have iT := (rows_residence_mean hD hOK C hc hv hL x u n).1
  have iM := rows_transitions_integrable hD hOK C hc hv hL hxy u n
  filter_upwards [repetitions_mean iM, repetitions_mean iT] with ω hM hT
  have eM : ∀ k, (rawTransitions N.vars (pooledRows net C n k ω) v L x y u : ℝ) = ∑ i ∈ Finset.range k, (rawTransitions N.vars [sampledRows net C n (ω i)] v L x y u : ℝ) := by
    intro k
    rw [rawTransitions_many, ← sum_range_list, pooledRows, List.map_map, Nat.cast_list_sum, List.map_map]
    rfl
  have eT : ∀ k, (rawResidence N.vars (pooledRows net C n k ω) v L x u : ℝ) = ∑ i ∈ Finset.range k, (rawResidence N.vars [sampledRows net C n (ω i)] v L x u : ℝ) := by
    intro k
    rw [rawResidence_many, ← sum_range_list, pooledRows, List.map_map, Rat.cast_list_sum, List.map_map]
    rfl
  simp only [eM, eT]
  exact ratio_limit hR hM hT

/-- **C206.**  Given the states of all parents, the estimates from more and more trajectories sampled with the same `max_tr` converge almost surely to the rate of the sampled process
times the share of the time that is spent before the last state. -/
theorem pooled_estimate_limit (hc : N.Conservative) {v : Label} (hv : v ∈ N.vars) {L : List Label} (hL : ∀ p ∈ L, p ∈ N.vars)
    (hP : ∀ p ∈ N.parents v, p ∈ L) {x y : Nat} (hxy : y ≠ x) (hy : y < N.card v) (u : List Nat) (n : Nat)
    (hR : 0 < ∫ ω, (rawResidence N.vars [sampledRows (m := N.vars.length) net C (n + 1) ω] v L x u : ℝ) ∂drawLaw N.vars.length P) :
    ∀ᵐ ω ∂manyLaw N.vars.length P, Tendsto (fun k => ((rawTransitions N.vars (pooledRows net C (n + 1) k ω) v L x y u : ℝ) + 1)
        / ((rawResidence N.vars (pooledRows net C (n + 1) k ω) v L x u : ℝ) + 1)) atTop
      (𝓝 (N.inverseAt v (N.parentPart v L u) x y
        * ((∫ ω, circumstanceTime N v L x u (N.vars.map (fun _ => 0)) (sampledMoves (m := N.vars.length) net C n ω) ∂drawLaw N.vars.length P)
          / ∫ ω, (rawResidence N.vars [sampledRows (m := N.vars.length) net C (n + 1) ω] v L x u : ℝ) ∂drawLaw N.vars.length P))) := by
  have := pooled_estimate_mean hD hOK C hc hv hL hxy u (n + 1) hR
  rwa [(rows_transitions_mean hD hOK C hc hv hL hP hxy hy u n).2, mul_div_assoc] at this

omit hD hOK in
theorem listTotal_caseInd_nonneg (v : Label) (L : List Label) (x : Nat) (u : List Nat) (ms : List Move) (h : ∀ m ∈ ms, 0 ≤ m.hold) : ∀ vals t,
    0 ≤ listTotal (linStep (fun _ _ => 0) (caseInd N v L x u)) vals t ms := by
  induction ms with
  | nil => intro vals t; exact le_rfl
  | cons m ms ih =>
    intro vals t
    rw [listTotal]
    refine add_nonneg ?_ (ih (fun m hm => h m (List.mem_cons_of_mem _ hm)) _ _)
    unfold linStep caseInd
    have h0 := h m (by simp)
    have : (round4R t : ℝ) ≤ round4R (t + m.hold) := by exact_mod_cast round4R_mono (by linarith)
    split_ifs
    · linarith
    · simp

/-- In the initial circumstances every trajectory with `max_tr` at least 1 spends time, on average. -/
theorem rows_residence_pos (hc : N.Conservative) {v : Label} (hv : v ∈ N.vars) {L : List Label} (hL : ∀ p ∈ L, p ∈ N.vars) {x : Nat} {u : List Nat}
    (hcase : Circumstances N v L x u (N.vars.map (fun _ => 0))) (n : Nat) :
    0 < ∫ ω, (rawResidence N.vars [sampledRows (m := N.vars.length) net C (n + 1) ω] v L x u : ℝ) ∂drawLaw N.vars.length P := by
  have hpos := leaves_of_conservative hD hOK hc
  have hU := usable_inverse hD hOK hpos
  have hr0 : N.InRange (N.vars.map (fun _ => 0)) := zeros_inRange hOK
  have hdraw : IsProbabilityMeasure (drawLaw N.vars.length P) := by unfold drawLaw; infer_instance
  have e1 : ∀ ω, (rawResidence N.vars [sampledRows (m := N.vars.length) net C (n + 1) ω] v L x u : ℝ)
      = listTotal (linStep (fun _ _ => 0) (caseInd N v L x u)) (N.vars.map (fun _ => 0)) 0 (sampledMoves (m := N.vars.length) net C (n + 1) ω) :=
    fun ω => (sampledRows_sums hD hOK C hv hL (x := x) (y := x + 1) (by omega) u (n + 1) ω).1
  have hnn : ∀ᵐ ω ∂drawLaw N.vars.length P, 0 ≤ (rawResidence N.vars [sampledRows (m := N.vars.length) net C (n + 1) ω] v L x u : ℝ) := by
    filter_upwards [sampled_moves_genuine hD hOK C hpos (n + 1)] with ω hω
    obtain ⟨ms, h1, -, h3⟩ := hω
    have e2 : sampledMoves net C (n + 1) ω = ms := by unfold sampledMoves movesOf; rw [h1]
    rw [e1, e2]
    exact listTotal_caseInd_nonneg v L x u ms (fun m hm => by obtain ⟨-, -, -, h⟩ := h3 m hm; exact h.le) _ _
  rw [integral_pos_iff_support_of_nonneg_ae hnn (rows_residence_mean hD hOK C hc hv hL x u (n + 1)).1]
  -- a move that is possible
  obtain ⟨s, hs, hsp⟩ : ∃ s ∈ steps N, 0 < stepProb N N.inverseRates (N.vars.map (fun _ => 0)) s := by
    by_contra hno
    push Not at hno
    have := Finset.sum_nonpos hno
    rw [sum_stepProb hU hr0] at this
    linarith
  have hprop : Proper N [(s.1, s.2, (1 : ℝ))] := by
    intro c hcm
    rw [List.mem_singleton] at hcm
    subst hcm
    obtain ⟨w, h1, h2⟩ := mem_steps.1 hs
    exact ⟨w, h1, h2, zero_le_one⟩
  have hev := sample_moves_law C hD hOK hpos hprop
  have hevp : 0 < drawLaw N.vars.length P {ω | MovesAre (net.movesR 1 (drawsAt C ω) net.initClock) [(s.1, s.2, (1 : ℝ))]} := by
    refine lt_of_lt_of_eq ?_ hev.symm
    rw [ENNReal.ofReal_pos]
    simp only [jumpLaw, mul_one]
    exact mul_pos hsp (Real.exp_pos _)
  refine hevp.trans_le (measure_mono_ae ?_)
  filter_upwards [sampled_moves_genuine hD hOK C hpos (n + 1)] with ω hω hmv
  obtain ⟨ms, h1, h2, h3⟩ := hω
  replace hmv : MovesAre (net.movesR 1 (drawsAt C ω) net.initClock) [(s.1, s.2, (1 : ℝ))] := hmv
  show (rawResidence N.vars [sampledRows (m := N.vars.length) net C (n + 1) ω] v L x u : ℝ) ≠ 0
  have e2 : sampledMoves net C (n + 1) ω = ms := by unfold sampledMoves movesOf; rw [h1]
  rw [e1, e2]
  obtain ⟨m, ms, rfl⟩ : ∃ m ms', ms = m :: ms' := by
    cases ms with
    | nil => simp at h2
    | cons m ms => exact ⟨m, ms, rfl⟩
  rw [movesR_take h1 (Nat.succ_le_succ (Nat.zero_le n))] at hmv
  obtain ⟨ms', hm', hf⟩ := hmv
  simp only [List.take_succ_cons, List.take_zero, Except.ok.injEq] at hm'
  subst hm'
  have hh : 1 < m.hold := (List.forall₂_cons.1 hf).1.2.2
  rw [listTotal]
  have hrest := listTotal_caseInd_nonneg (N := N) v L x u ms (fun m hm => by obtain ⟨-, -, -, h⟩ := h3 m (List.mem_cons_of_mem _ hm); exact h.le) ((N.vars.map (fun _ => 0)).set m.var m.target) (0 + m.hold)
  have hfirst : 0 < linStep (fun _ _ => 0) (caseInd N v L x u) (N.vars.map (fun _ => 0)) 0 ⟨m.var, m.target⟩ m.hold := by
    unfold linStep caseInd
    rw [if_pos hcase]
    have a := abs_le.1 (abs_roundError_le 0)
    have b := abs_le.1 (abs_roundError_le (0 + m.hold))
    unfold roundError at a b
    linarith [a.2, b.1]
  linarith

/-- **C207.**  From trajectories sampled with `max_tr = 1`, however many, every estimate tends to 0 in the initial circumstances, whatever the intensity. -/
theorem single_transition_estimates (hc : N.Conservative) {v : Label} (hv : v ∈ N.vars) {L : List Label} (hL : ∀ p ∈ L, p ∈ N.vars) {x y : Nat} (hxy : y ≠ x) {u : List Nat}
    (hcase : Circumstances N v L x u (N.vars.map (fun _ => 0))) :
    ∀ᵐ ω ∂manyLaw N.vars.length P, (∀ k, rawTransitions N.vars (pooledRows net C 1 k ω) v L x y u = 0) ∧
      Tendsto (fun k => ((rawTransitions N.vars (pooledRows net C 1 k ω) v L x y u : ℝ) + 1)
        / ((rawResidence N.vars (pooledRows net C 1 k ω) v L x u : ℝ) + 1)) atTop (𝓝 0) := by
  have h0 : ∀ ω : ℕ → (Fin N.vars.length → ℝ) × U, rawTransitions N.vars [sampledRows net C 1 ω] v L x y u = 0 := by
    intro ω
    have hl := sampledMoves_length (net := net) C 1 ω
    rcases sampledRows_eq C hD.vnames 1 ω with h | ⟨h, -⟩
    · have := rows_transitions hOK hv hL hxy u (sampledMoves net C 1 ω) (t := 0) (vals := N.vars.map (fun _ => 0)) (by simp)
      rw [← h] at this
      have hd : (sampledMoves net C 1 ω).dropLast = [] := by
        apply List.eq_nil_of_length_eq_zero
        rw [List.length_dropLast]; omega
      rw [hd, listTotal] at this
      exact_mod_cast this
    · rw [h]; simp [rawTransitions, consecutive]
  filter_upwards [pooled_estimate_mean hD hOK C hc hv hL hxy u 1 (rows_residence_pos hD hOK C hc hv hL hcase 0)] with ω h
  refine ⟨fun k => ?_, ?_⟩
  · rw [rawTransitions_many, pooledRows, List.map_map]
    exact List.sum_eq_zero (fun a ha => by obtain ⟨i, -, rfl⟩ := List.mem_map.1 ha; exact h0 _)
  · simp only [h0, Nat.cast_zero, integral_zero, zero_div] at h
    exact h

/-- **C206** (how far off).  When the mean time in the circumstances during the last, unseen state is more than the rounding of the stamps can make up for, the estimates
converge to less than the rate of the sampled process. -/
theorem pooled_estimate_short (hc : N.Conservative) {v : Label} (hv : v ∈ N.vars) {L : List Label} (hL : ∀ p ∈ L, p ∈ N.vars)
    (hP : ∀ p ∈ N.parents v, p ∈ L) {x y : Nat} (hxy : y ≠ x) (hy : y < N.card v) (u : List Nat) (n : Nat) (hr : 0 < N.inverseAt v (N.parentPart v L u) x y)
    (hlast : (n + 1 : ℝ) / 10000 < ∫ ω, circumstanceTime N v L x u (N.vars.map (fun _ => 0)) (sampledMoves (m := N.vars.length) net C (n + 1) ω) ∂drawLaw N.vars.length P
      - ∫ ω, circumstanceTime N v L x u (N.vars.map (fun _ => 0)) (sampledMoves (m := N.vars.length) net C n ω) ∂drawLaw N.vars.length P) :
    ∃ l < N.inverseAt v (N.parentPart v L u) x y, ∀ᵐ ω ∂manyLaw N.vars.length P, Tendsto (fun k => ((rawTransitions N.vars (pooledRows net C (n + 1) k ω) v L x y u : ℝ) + 1)
        / ((rawResidence N.vars (pooledRows net C (n + 1) k ω) v L x u : ℝ) + 1)) atTop (𝓝 l) := by
  have hpos := leaves_of_conservative hD hOK hc
  have hτ : 0 ≤ ∫ ω, circumstanceTime N v L x u (N.vars.map (fun _ => 0)) (sampledMoves (m := N.vars.length) net C n ω) ∂drawLaw N.vars.length P := by
    refine integral_nonneg_of_ae ?_
    filter_upwards [sampled_moves_genuine hD hOK C hpos n] with ω hω
    obtain ⟨ms, h1, -, h3⟩ := hω
    have e2 : sampledMoves net C n ω = ms := by unfold sampledMoves movesOf; rw [h1]
    rw [e2]
    have : ∀ (ms : List Move), (∀ m ∈ ms, 0 ≤ m.hold) → ∀ vals, 0 ≤ circumstanceTime N v L x u vals ms := by
      intro ms
      induction ms with
      | nil => intro _ vals; exact le_rfl
      | cons m ms ih =>
        intro h vals
        rw [circumstanceTime]
        refine add_nonneg ?_ (ih (fun m hm => h m (List.mem_cons_of_mem _ hm)) _)
        split_ifs
        · exact h m (by simp)
        · exact le_rfl
    exact this ms (fun m hm => by obtain ⟨-, -, -, h⟩ := h3 m hm; exact h.le) _
  have hres := abs_le.1 (rows_residence_mean hD hOK C hc hv hL x u (n + 1)).2
  push_cast at hres
  set τ := ∫ ω, circumstanceTime N v L x u (N.vars.map (fun _ => 0)) (sampledMoves (m := N.vars.length) net C n ω) ∂drawLaw N.vars.length P
  set R := ∫ ω, (rawResidence N.vars [sampledRows (m := N.vars.length) net C (n + 1) ω] v L x u : ℝ) ∂drawLaw N.vars.length P with hR
  have h1 : τ < R := by linarith [hres.1]
  have hRpos : 0 < R := by linarith
  refine ⟨_, ?_, pooled_estimate_limit hD hOK C hc hv hL hP hxy hy u n hRpos⟩
  have : τ / R < 1 := by rw [div_lt_one hRpos]; exact h1
  exact mul_lt_of_lt_one_right hr this

end

/-! ## Non-vacuity -/

/-- Mean times, one move after another. -/
theorem meanTime_succ {N : Ctbn} (hOK : N.OK) {rate : List Nat → Label → Nat → ℝ} (hU : Usable N rate) (w : List Nat → ℝ) (n : Nat) :
    (∀ {vals : List Nat}, N.InRange vals → ∀ t, meanTotal N rate (fun vals _ _ a => 0 + w vals * a) n vals t = meanTotal N rate (fun vals _ _ a => 0 + w vals * a) n vals 0) ∧
    ∀ {vals : List Nat}, N.InRange vals → ∀ t, meanTotal N rate (fun vals _ _ a => 0 + w vals * a) (n + 1) vals t
      = w vals / totalRate N rate vals + ∑ s ∈ steps N, stepProb N rate vals s * meanTotal N rate (fun vals _ _ a => 0 + w vals * a) n (after vals s) 0 := by
  obtain ⟨A, hA⟩ := tame_simple hOK hU (fun _ _ => 0) w
  have step : ∀ n, (∀ {vals : List Nat}, N.InRange vals → ∀ t, meanTotal N rate (fun vals _ _ a => 0 + w vals * a) n vals t = meanTotal N rate (fun vals _ _ a => 0 + w vals * a) n vals 0) →
      ∀ {vals : List Nat}, N.InRange vals → ∀ t, meanTotal N rate (fun vals _ _ a => 0 + w vals * a) (n + 1) vals t
      = w vals / totalRate N rate vals + ∑ s ∈ steps N, stepProb N rate vals s * meanTotal N rate (fun vals _ _ a => 0 + w vals * a) n (after vals s) 0 := by
    intro n ih vals hr t
    have hR := hU.pos vals hr
    have hP := isProbabilityMeasure_expMeasure hR
    rw [meanTotal_succ hU hA n hr]
    have e : ∀ s ∈ steps N, stepProb N rate vals s * ∫ a, ((0 + w vals * a) + meanTotal N rate (fun vals _ _ a => 0 + w vals * a) n (after vals s) (t + a)) ∂expMeasure (totalRate N rate vals)
        = stepProb N rate vals s * (w vals / totalRate N rate vals) + stepProb N rate vals s * meanTotal N rate (fun vals _ _ a => 0 + w vals * a) n (after vals s) 0 := by
      intro s hs
      rw [← mul_add]
      congr 1
      simp only [ih (hU.closed vals hr s hs)]
      generalize meanTotal N rate (fun vals _ _ a => 0 + w vals * a) n (after vals s) 0 = c
      simp only [zero_add]
      have h1 := Clocks.exp_moment hR 1
      have h2 := Clocks.exp_pow_integrable hR 1
      simp only [pow_one, Nat.factorial] at h1 h2
      rw [integral_add (h2.const_mul _) (integrable_const _), integral_const_mul, h1]
      simp [div_eq_mul_inv]
    rw [Finset.sum_congr rfl e, Finset.sum_add_distrib, ← Finset.sum_mul, sum_stepProb hU hr, one_mul]
  have hinv : ∀ n, ∀ {vals : List Nat}, N.InRange vals → ∀ t, meanTotal N rate (fun vals _ _ a => 0 + w vals * a) n vals t = meanTotal N rate (fun vals _ _ a => 0 + w vals * a) n vals 0 := by
    intro n
    induction n with
    | zero => intro vals _ t; rw [meanTotal_zero, meanTotal_zero]
    | succ n ih => intro vals hr t; rw [step n ih hr, step n ih hr]
  exact ⟨hinv n, step n (hinv n)⟩

namespace Demo

theorem pair_time_succ (n : Nat) {a b : Nat} (ha : a < 2) (hb : b < 2) :
    meanTotal pairCtbn pairCtbn.inverseRates (fun vals _ _ a => 0 + caseInd pairCtbn "X" [] 0 [] vals * a) (n + 1) [a, b] 0
      = (if a = 0 then 1 else 0) / (if a = 1 ∧ b = 0 then 3 else 2)
        + (1 / (if a = 1 ∧ b = 0 then 3 else 2) * meanTotal pairCtbn pairCtbn.inverseRates (fun vals _ _ a => 0 + caseInd pairCtbn "X" [] 0 [] vals * a) n [1 - a, b] 0
          + (if a = 1 ∧ b = 0 then 2 / 3 else 1 / 2) * meanTotal pairCtbn pairCtbn.inverseRates (fun vals _ _ a => 0 + caseInd pairCtbn "X" [] 0 [] vals * a) n [a, 1 - b] 0) := by
  have hU := usable_inverse pair_describes pair_ok (leaves_of_conservative pair_describes pair_ok pair_conservative)
  have hr : pairCtbn.InRange [a, b] := by
    have : a = 0 ∨ a = 1 := by omega
    have : b = 0 ∨ b = 1 := by omega
    rcases ‹a = 0 ∨ a = 1› with rfl | rfl <;> rcases ‹b = 0 ∨ b = 1› with rfl | rfl <;> exact ⟨rfl, by decide⟩
  rw [(meanTime_succ pair_ok hU _ n).2 hr, pair_total ha hb]
  have hs : JumpPaths.steps pairCtbn = {⟨0, 0⟩, ⟨0, 1⟩, ⟨1, 0⟩, ⟨1, 1⟩} := by decide
  rw [hs, Finset.sum_insert (by decide), Finset.sum_insert (by decide), Finset.sum_insert (by decide), Finset.sum_singleton]
  have e0 : pairCtbn.vars.getD 0 "" = "X" := rfl
  have e1 : pairCtbn.vars.getD 1 "" = "Y" := rfl
  have hcase : caseInd pairCtbn "X" [] 0 [] [a, b] = if a = 0 then 1 else 0 := by
    unfold caseInd
    have h : ∀ x < 2, ∀ y < 2, Circumstances pairCtbn "X" [] 0 [] [x, y] ↔ x = 0 := by decide
    simp only [h a ha b hb]
  rw [hcase]
  simp only [stepProb, pair_total ha hb, e0, e1, pair_rateX ha hb (by norm_num : 0 < 2), pair_rateX ha hb (by norm_num : 1 < 2),
    pair_rateY ha hb (by norm_num : 0 < 2), pair_rateY ha hb (by norm_num : 1 < 2), after]
  have : a = 0 ∨ a = 1 := by omega
  have : b = 0 ∨ b = 1 := by omega
  rcases ‹a = 0 ∨ a = 1› with rfl | rfl <;> rcases ‹b = 0 ∨ b = 1› with rfl | rfl <;> simp

/-- C206: with `max_tr = 2` the variable `X`, whose sampled rate is 1, spends 3/4 units of time in 0, of which half before its last state: the estimates tend to less than 1. -/
example : ∃ l < (1 : ℝ), ∀ᵐ ω ∂manyLaw 2 (Measure.infinitePi choiceLaw), Tendsto (fun k => ((rawTransitions ["X", "Y"] (pooledRows pairNet someCategorical 2 k ω) "X" [] 0 1 [] : ℝ) + 1)
        / ((rawResidence ["X", "Y"] (pooledRows pairNet someCategorical 2 k ω) "X" [] 0 [] : ℝ) + 1)) atTop (𝓝 l) := by
  have hU := usable_inverse pair_describes pair_ok (leaves_of_conservative pair_describes pair_ok pair_conservative)
  have e : pairCtbn.inverseAt "X" (pairCtbn.parentPart "X" [] []) 0 1 = 1 := by
    unfold Ctbn.inverseAt
    have e1 : pairCtbn.intensityAt "X" (pairCtbn.parentPart "X" [] []) 0 1 = 1 := by decide +kernel
    have e2 : pairCtbn.exitAt "X" (pairCtbn.parentPart "X" [] []) 0 = 1 := by decide +kernel
    rw [e1, e2]; norm_num
  have hmean : ∀ n, ∫ ω, circumstanceTime pairCtbn "X" [] 0 [] [0, 0] (sampledMoves (m := 2) pairNet someCategorical n ω) ∂drawLaw 2 (Measure.infinitePi choiceLaw)
      = meanTotal pairCtbn pairCtbn.inverseRates (fun vals _ _ a => 0 + caseInd pairCtbn "X" [] 0 [] vals * a) n [0, 0] 0 := by
    intro n
    obtain ⟨A, hA⟩ := tame_simple pair_ok hU (fun _ _ => 0) (caseInd pairCtbn "X" [] 0 [])
    have := (sampled_total_mean pair_describes pair_ok someCategorical (leaves_of_conservative pair_describes pair_ok pair_conservative) hA n).2
    rw [← show _ = meanTotal pairCtbn pairCtbn.inverseRates (fun vals _ _ a => 0 + caseInd pairCtbn "X" [] 0 [] vals * a) n [0, 0] 0 from this]
    exact integral_congr_ae (.of_forall (fun ω => circumstanceTime_eq pairCtbn "X" [] 0 [] _ _ 0))
  have h := pooled_estimate_short pair_describes pair_ok someCategorical pair_conservative (v := "X") (by decide) (L := []) (by simp) (by decide)
    (x := 0) (y := 1) (by decide) (by decide) [] 1 (by rw [e]; norm_num) (by
      have e : pairCtbn.vars.map (fun _ => 0) = [0, 0] := rfl
      have e2 : pairCtbn.vars.length = 2 := rfl
      rw [e]
      have h1 := hmean 1
      have h2 := hmean (1 + 1)
      rw [pair_time_succ 0 (by norm_num) (by norm_num)] at h1
      rw [pair_time_succ 1 (by norm_num) (by norm_num), pair_time_succ 0 (by norm_num) (by norm_num), pair_time_succ 0 (by norm_num) (by norm_num)] at h2
      simp only [meanTotal_zero] at h1 h2
      norm_num at h1 h2
      have h1' : ∫ ω, circumstanceTime pairCtbn "X" [] 0 [] [0, 0] (sampledMoves (m := pairCtbn.vars.length) pairNet someCategorical 1 ω) ∂drawLaw pairCtbn.vars.length (Measure.infinitePi choiceLaw) = _ := h1
      have h2' : ∫ ω, circumstanceTime pairCtbn "X" [] 0 [] [0, 0] (sampledMoves (m := pairCtbn.vars.length) pairNet someCategorical 2 ω) ∂drawLaw pairCtbn.vars.length (Measure.infinitePi choiceLaw) = _ := h2
      rw [h1', h2']
      norm_num)
  rw [e] at h
  exact h

/-- C207: `Y`, in its initial state and with `X` in its initial state, is estimated never to move. -/
example : ∀ᵐ ω ∂manyLaw 2 (Measure.infinitePi choiceLaw), (∀ k, rawTransitions ["X", "Y"] (pooledRows pairNet someCategorical 1 k ω) "Y" ["X"] 0 1 [0] = 0) ∧
    Tendsto (fun k => ((rawTransitions ["X", "Y"] (pooledRows pairNet someCategorical 1 k ω) "Y" ["X"] 0 1 [0] : ℝ) + 1)
        / ((rawResidence ["X", "Y"] (pooledRows pairNet someCategorical 1 k ω) "Y" ["X"] 0 [0] : ℝ) + 1)) atTop (𝓝 0) :=
  single_transition_estimates pair_describes pair_ok someCategorical pair_conservative (v := "Y") (by decide) (L := ["X"]) (by decide) (by decide) (by decide)

end Demo

end

end PyCTBN
