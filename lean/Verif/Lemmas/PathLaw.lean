import Verif.Lemmas.JumpPaths
import Verif.Lemmas.ExpMoments
import Verif.Lemmas.Clocks

/-!
# The holding times given the path

If the probabilities of all lists of moves with thresholds are those of a jump process, then, on the event that the moves
follow a path, the holding times are independent exponential clocks, and expectations are finite sums over paths.
-/

open MeasureTheory ProbabilityTheory Set
open scoped ENNReal

namespace PyCTBN.JumpPaths
open Spec

noncomputable section

/-- The moves of a path, with thresholds for the holding times. -/
def events {n : Nat} (σ : Fin n → Step) (a : Fin n → ℝ) : List MoveEvent := List.ofFn (fun i => ((σ i).1, (σ i).2, a i))

theorem events_length {n : Nat} (σ : Fin n → Step) (a : Fin n → ℝ) : (events σ a).length = n := by simp [events]

theorem events_proper {N : Ctbn} {n : Nat} {σ : Fin n → Step} (hσ : σ ∈ paths N n) {a : Fin n → ℝ} (ha : ∀ i, 0 ≤ a i) : Proper N (events σ a) := by
  intro c hc
  obtain ⟨i, rfl⟩ := (List.mem_ofFn' _ _).1 hc
  simp only [paths, Fintype.mem_piFinset] at hσ
  obtain ⟨v, h1, h2⟩ := mem_steps.1 (hσ i)
  exact ⟨v, h1, h2, ha i⟩

theorem jumpLaw_events {N : Ctbn} {rate : Rates} {n : Nat} : ∀ (σ : Fin n → Step) (a : Fin n → ℝ) (vals : List Nat),
    jumpLaw N rate (events σ a) vals = pathProb N rate σ vals * ∏ i, Real.exp (-(ratesAlong N rate σ vals i * a i)) := by
  induction n with
  | zero => intro σ a vals; simp [events, jumpLaw, pathProb]
  | succ n ih =>
    intro σ a vals
    have e : events σ a = ((σ 0).1, (σ 0).2, a 0) :: events (Fin.tail σ) (Fin.tail a) := by
      unfold events; rw [List.ofFn_succ]; rfl
    rw [e, jumpLaw, show vals.set (σ 0).1 (σ 0).2 = after vals (σ 0) from rfl, ih, pathProb, Fin.prod_univ_succ]
    simp only [ratesAlong, along, Fin.cons_zero, Fin.cons_succ, stepProb, Fin.tail]
    ring

/-- The holding times of the first `n` moves. -/
def holds (n : Nat) (ms : List Move) : Fin n → ℝ := fun i => ((ms[i.val]?).map Move.hold).getD 0

theorem movesAre_events {r : Py (List Move)} {n : Nat} {σ : Fin n → Step} {a : Fin n → ℝ} :
    MovesAre r (events σ a) ↔ ∃ ms, r = .ok ms ∧ ms.length = n ∧ (∀ i : Fin n, (ms[i.val]?).map (fun m => (m.var, m.target)) = some ((σ i).1, (σ i).2)) ∧
      ∀ i, a i < holds n ms i := by
  unfold MovesAre events
  constructor
  · rintro ⟨ms, h1, h2⟩
    have hlen : ms.length = n := by simpa using h2.length_eq
    have hget := (List.forall₂_iff_get.1 h2).2
    refine ⟨ms, h1, hlen, fun i => ?_, fun i => ?_⟩
    · have hi : i.val < ms.length := by omega
      have := hget i hi (by simp)
      simp only [List.get_eq_getElem, List.getElem_ofFn] at this
      rw [List.getElem?_eq_getElem hi, Option.map_some, this.1, this.2.1]
    · have hi : i.val < ms.length := by omega
      have := hget i hi (by simp)
      simp only [List.get_eq_getElem, List.getElem_ofFn] at this
      unfold holds
      rw [List.getElem?_eq_getElem hi, Option.map_some, Option.getD_some]
      exact this.2.2
  · rintro ⟨ms, h1, h2, h3, h4⟩
    refine ⟨ms, h1, List.forall₂_iff_get.2 ⟨by simp [h2], fun i hi hi' => ?_⟩⟩
    have hin : i < n := by omega
    have h3' := h3 ⟨i, hin⟩
    have h4' := h4 ⟨i, hin⟩
    unfold holds at h4'
    simp only [List.getElem?_eq_getElem hi, Option.map_some, Option.some.injEq, Prod.mk.injEq, Option.getD_some] at h3' h4'
    simp only [List.get_eq_getElem, List.getElem_ofFn]
    exact ⟨h3'.1, h3'.2, h4'⟩

section
variable {Ω : Type} [MeasurableSpace Ω] {μ : Measure Ω} [IsProbabilityMeasure μ] {N : Ctbn} {rate : Rates} {vals : List Nat} {n : Nat}
  {run : Ω → Py (List Move)}

/-- The moves follow the path, with positive holding times. -/
def onPath (run : Ω → Py (List Move)) {n : Nat} (σ : Fin n → Step) : Set Ω := {ω | MovesAre (run ω) (events σ (fun _ => 0))}

omit [MeasurableSpace Ω] in
theorem onPath_and {σ : Fin n → Step} (a : Fin n → ℝ) :
    onPath run σ ∩ {ω | ∀ i, a i < holds n (movesOf (run ω)) i} = {ω | MovesAre (run ω) (events σ (fun i => max 0 (a i)))} := by
  ext ω
  simp only [onPath, mem_inter_iff, Set.mem_ofPred_eq, movesAre_events]
  constructor
  · rintro ⟨⟨ms, h1, h2, h3, h4⟩, h5⟩
    refine ⟨ms, h1, h2, h3, fun i => max_lt (h4 i) ?_⟩
    have := h5 i
    rwa [h1] at this
  · rintro ⟨ms, h1, h2, h3, h4⟩
    refine ⟨⟨ms, h1, h2, h3, fun i => (le_max_left _ _).trans_lt (h4 i)⟩, fun i => ?_⟩
    rw [h1]
    exact (le_max_right _ _).trans_lt (h4 i)

omit [MeasurableSpace Ω] in
theorem onPath_disjoint {σ τ : Fin n → Step} (h : σ ≠ τ) : Disjoint (onPath run σ) (onPath run τ) := by
  rw [Set.disjoint_left]
  intro ω h1 h2
  simp only [onPath, Set.mem_ofPred_eq, movesAre_events] at h1 h2
  obtain ⟨ms, a1, -, a3, -⟩ := h1
  obtain ⟨ms', b1, -, b3, -⟩ := h2
  rw [a1] at b1
  cases b1
  apply h
  funext i
  have := (a3 i).symm.trans (b3 i)
  simp only [Option.some.injEq, Prod.mk.injEq] at this
  exact Sigma.ext this.1 (heq_of_eq this.2)

variable (hU : Usable N rate) (hr : N.InRange vals)
  (hm : ∀ L : List MoveEvent, L.length = n → Proper N L → MeasurableSet {ω | MovesAre (run ω) L})
  (hl : ∀ L : List MoveEvent, L.length = n → Proper N L → μ {ω | MovesAre (run ω) L} = ENNReal.ofReal (jumpLaw N rate L vals))
include hm

omit [IsProbabilityMeasure μ] in
theorem measurableSet_onPath {σ : Fin n → Step} (hσ : σ ∈ paths N n) : MeasurableSet (onPath run σ) :=
  hm _ (events_length _ _) (events_proper hσ (fun _ => le_rfl))

omit [IsProbabilityMeasure μ] in
theorem aemeasurable_holds {σ : Fin n → Step} (hσ : σ ∈ paths N n) :
    AEMeasurable (fun ω => holds n (movesOf (run ω))) (μ.restrict (onPath run σ)) := by
  classical
  have hE := measurableSet_onPath hm hσ
  refine aemeasurable_pi_lambda _ (fun i => ?_)
  refine ⟨(onPath run σ).indicator (fun ω => holds n (movesOf (run ω)) i), ?_, ?_⟩
  · refine measurable_of_Ioi (fun a => ?_)
    have hS : MeasurableSet (onPath run σ ∩ {ω | ∀ j, (fun j => if j = i then a else 0) j < holds n (movesOf (run ω)) j}) := by
      rw [onPath_and]
      exact hm _ (events_length _ _) (events_proper hσ (fun _ => le_max_left _ _))
    have hS' : onPath run σ ∩ {ω | ∀ j, (fun j => if j = i then a else 0) j < holds n (movesOf (run ω)) j}
        = onPath run σ ∩ {ω | a < holds n (movesOf (run ω)) i} := by
      ext ω
      simp only [mem_inter_iff, Set.mem_ofPred_eq]
      refine and_congr_right (fun h => ⟨fun h' => by simpa using h' i, fun h' j => ?_⟩)
      by_cases hj : j = i
      · subst hj; simpa using h'
      · simp only [if_neg hj]
        simp only [onPath, Set.mem_ofPred_eq, movesAre_events] at h
        obtain ⟨ms, a1, -, -, a4⟩ := h
        rw [a1]; exact a4 j
    rw [hS'] at hS
    by_cases ha : a < 0
    · have : (onPath run σ).indicator (fun ω => holds n (movesOf (run ω)) i) ⁻¹' Ioi a = univ := by
        ext ω
        simp only [mem_preimage, mem_Ioi, mem_univ, iff_true]
        by_cases h : ω ∈ onPath run σ
        · rw [indicator_of_mem h]
          simp only [onPath, Set.mem_ofPred_eq, movesAre_events] at h
          obtain ⟨ms, a1, -, -, a4⟩ := h
          rw [a1]; exact ha.trans (a4 i)
        · rw [indicator_of_notMem h]; exact ha
      rw [this]; exact MeasurableSet.univ
    · have : (onPath run σ).indicator (fun ω => holds n (movesOf (run ω)) i) ⁻¹' Ioi a = onPath run σ ∩ {ω | a < holds n (movesOf (run ω)) i} := by
        ext ω
        simp only [mem_preimage, mem_Ioi, mem_inter_iff, Set.mem_ofPred_eq]
        by_cases h : ω ∈ onPath run σ
        · rw [indicator_of_mem h]; simp [h]
        · rw [indicator_of_notMem h]; simp [h, ha]
      rw [this]; exact hS
  · filter_upwards [ae_restrict_mem hE] with ω hω
    rw [indicator_of_mem hω]

include hU hr hl

/-- The probability of a path. -/
theorem measure_onPath {σ : Fin n → Step} (hσ : σ ∈ paths N n) : μ (onPath run σ) = ENNReal.ofReal (pathProb N rate σ vals) := by
  unfold onPath
  rw [hl _ (events_length _ _) (events_proper hσ (fun _ => le_rfl)), jumpLaw_events]
  simp

/-- Almost surely the moves follow some path. -/
theorem measure_paths : μ (⋃ σ ∈ paths N n, onPath run σ) = 1 := by
  rw [measure_biUnion_finset]
  · rw [Finset.sum_congr rfl (fun σ hσ => measure_onPath hU hr hm hl hσ), ← ENNReal.ofReal_sum_of_nonneg (fun σ hσ => pathProb_nonneg hU hr hσ),
      sum_pathProb hU n hr, ENNReal.ofReal_one]
  · intro σ _ τ _ h; exact onPath_disjoint h
  · intro σ hσ; exact measurableSet_onPath hm hσ

/-- On the event that the moves follow the path, the holding times are independent exponential clocks with the total rates along the path. -/
theorem holds_law {σ : Fin n → Step} (hσ : σ ∈ paths N n) :
    (μ.restrict (onPath run σ)).map (fun ω => holds n (movesOf (run ω)))
      = ENNReal.ofReal (pathProb N rate σ vals) • Measure.pi (fun i => expMeasure (ratesAlong N rate σ vals i)) := by
  have hR := ratesAlong_pos hU hr hσ
  have hP : ∀ i, IsProbabilityMeasure (expMeasure (ratesAlong N rate σ vals i)) := fun i => isProbabilityMeasure_expMeasure (hR i)
  have hE := measurableSet_onPath hm hσ
  have hp := measure_onPath hU hr hm hl hσ
  have hae := aemeasurable_holds (μ := μ) hm hσ
  rcases eq_or_ne (ENNReal.ofReal (pathProb N rate σ vals)) 0 with h0 | h0
  · rw [h0, zero_smul]
    rw [h0] at hp
    rw [Measure.restrict_eq_zero.2 hp, Measure.map_zero]
  · have hfin : ENNReal.ofReal (pathProb N rate σ vals) ≠ ∞ := ENNReal.ofReal_ne_top
    have key : Measure.pi (fun i => expMeasure (ratesAlong N rate σ vals i))
        = (ENNReal.ofReal (pathProb N rate σ vals))⁻¹ • (μ.restrict (onPath run σ)).map (fun ω => holds n (movesOf (run ω))) := by
      refine Measure.pi_eq_generateFrom (C := fun _ => range Ioi) (fun i => ?_) (fun i => ?_) (fun i => ?_) ?_
      · exact (borel_eq_generateFrom_Ioi ℝ).symm.trans (BorelSpace.measurable_eq (α := ℝ)).symm
      · exact isPiSystem_Ioi
      · exact ⟨fun j => Ioi (-(j : ℝ)), fun j => ⟨_, rfl⟩, fun j => measure_lt_top _ _, by
          ext x
          simp only [mem_iUnion, mem_Ioi, mem_univ, iff_true]
          obtain ⟨j, hj⟩ := exists_nat_gt (-x)
          exact ⟨j, by linarith⟩⟩
      · intro s hs
        choose a ha using hs
        have hs' : s = fun i => Ioi (a i) := funext (fun i => (ha i).symm)
        subst hs'
        rw [Measure.smul_apply, Measure.map_apply_of_aemeasurable hae (MeasurableSet.univ_pi (fun i => measurableSet_Ioi)),
          Measure.restrict_apply' hE]
        have : (fun ω => holds n (movesOf (run ω))) ⁻¹' (univ.pi fun i => Ioi (a i)) ∩ onPath run σ
            = {ω | MovesAre (run ω) (events σ (fun i => max 0 (a i)))} := by
          rw [← onPath_and, inter_comm]
          congr 1
          ext ω
          simp
        rw [this, hl _ (events_length _ _) (events_proper hσ (fun _ => le_max_left _ _)), jumpLaw_events,
          ENNReal.ofReal_mul (pathProb_nonneg hU hr hσ), smul_eq_mul, ← mul_assoc, ENNReal.inv_mul_cancel h0 hfin, one_mul,
          ENNReal.ofReal_prod_of_nonneg (fun i _ => (Real.exp_pos _).le)]
        refine Finset.prod_congr rfl (fun i _ => ?_)
        rw [Clocks.exp_Ioi (hR i)]
    rw [key, smul_smul, ENNReal.mul_inv_cancel h0 hfin, one_smul]

/-- The expectation of a random variable that is, on every path, a function of the holding times. -/
theorem expectation {G : Ω → ℝ} {F : (Fin n → Step) → (Fin n → ℝ) → ℝ}
    (hG : ∀ σ ∈ paths N n, ∀ ω ∈ onPath run σ, G ω = F σ (holds n (movesOf (run ω))))
    (hF : ∀ σ ∈ paths N n, Integrable (F σ) (Measure.pi (fun i => expMeasure (ratesAlong N rate σ vals i)))) :
    Integrable G μ ∧ ∫ ω, G ω ∂μ
      = ∑ σ ∈ paths N n, pathProb N rate σ vals * ∫ h, F σ h ∂Measure.pi (fun i => expMeasure (ratesAlong N rate σ vals i)) := by
  have hmeas : MeasurableSet (⋃ σ ∈ paths N n, onPath run σ) := Finset.measurableSet_biUnion _ (fun σ hσ => measurableSet_onPath hm hσ)
  have hrest : μ.restrict (⋃ σ ∈ paths N n, onPath run σ) = μ :=
    Measure.restrict_eq_self_of_ae_mem ((mem_ae_iff_prob_eq_one hmeas).2 (measure_paths hU hr hm hl))
  have hint : ∀ σ ∈ paths N n, IntegrableOn G (onPath run σ) μ ∧
      ∫ ω in onPath run σ, G ω ∂μ = pathProb N rate σ vals * ∫ h, F σ h ∂Measure.pi (fun i => expMeasure (ratesAlong N rate σ vals i)) := by
    intro σ hσ
    have hE := measurableSet_onPath hm hσ
    have hae := aemeasurable_holds (μ := μ) hm hσ
    have hlaw := holds_law hU hr hm hl hσ
    have hFi : Integrable (F σ) ((μ.restrict (onPath run σ)).map (fun ω => holds n (movesOf (run ω)))) := by
      rw [hlaw]; exact (hF σ hσ).smul_measure ENNReal.ofReal_ne_top
    have hcongr : (fun ω => F σ (holds n (movesOf (run ω)))) =ᵐ[μ.restrict (onPath run σ)] G := by
      filter_upwards [ae_restrict_mem hE] with ω hω
      exact (hG σ hσ ω hω).symm
    refine ⟨(hFi.comp_aemeasurable hae).congr hcongr, ?_⟩
    rw [← integral_congr_ae hcongr, ← integral_map hae hFi.aestronglyMeasurable, hlaw, integral_smul_measure,
      ENNReal.toReal_ofReal (pathProb_nonneg hU hr hσ), smul_eq_mul]
  constructor
  · rw [← hrest]
    exact (integrableOn_finset_iUnion.2 (fun σ hσ => (hint σ hσ).1))
  · conv_lhs => rw [← hrest]
    rw [integral_biUnion_finset _ (fun σ hσ => measurableSet_onPath hm hσ) (fun σ _ τ _ h => onPath_disjoint h) (fun σ hσ => (hint σ hσ).1)]
    exact Finset.sum_congr rfl (fun σ hσ => (hint σ hσ).2)

end

end

end PyCTBN.JumpPaths
