import Verif.Props.SampleLaw
import Verif.Lemmas.PathLaw
import Mathlib.MeasureTheory.Integral.Bochner.Basic

/-!
# The statistics of sampled trajectories: C181, C182
-/

open MeasureTheory ProbabilityTheory Filter
open scoped ENNReal Topology

namespace PyCTBN
open Spec JumpPaths

noncomputable section

/-! ## Counts and times on a path -/

/-- The indicator of the step counted. -/
def countStep (N : Ctbn) (v : Label) (x y : Nat) (u : List Nat) (vals : List Nat) (s : Step) : ℝ :=
  if InCase N v x u vals ∧ N.vars[s.1]? = some v ∧ s.2 = y then 1 else 0

/-- The indicator of the case. -/
def inCaseInd (N : Ctbn) (v : Label) (x : Nat) (u : List Nat) (vals : List Nat) : ℝ := if InCase N v x u vals then 1 else 0

theorem stats_on_path (N : Ctbn) (v : Label) (x y : Nat) (u : List Nat) {n : Nat} : ∀ (σ : Fin n → Step) (vals : List Nat) (ms : List Move), ms.length = n →
    (∀ i : Fin n, (ms[i.val]?).map (fun m => (m.var, m.target)) = some ((σ i).1, (σ i).2)) →
    (moveCount N v x y u vals ms : ℝ) = ∑ i, along (countStep N v x y u) σ vals i ∧
    timeSpent N v x u vals ms = ∑ i, along (fun vals _ => inCaseInd N v x u vals) σ vals i * holds n ms i := by
  induction n with
  | zero =>
    intro σ vals ms h _
    have : ms = [] := List.length_eq_zero_iff.1 h
    subst this
    simp [moveCount, timeSpent]
  | succ n ih =>
    intro σ vals ms h hs
    obtain ⟨m, ms, rfl⟩ : ∃ m ms', ms = m :: ms' := by
      cases ms with
      | nil => simp at h
      | cons m ms => exact ⟨m, ms, rfl⟩
    have h0 := hs 0
    simp only [Fin.val_zero, List.getElem?_cons_zero, Option.map_some, Option.some.injEq, Prod.mk.injEq] at h0
    obtain ⟨i1, i2⟩ := ih (Fin.tail σ) (after vals (σ 0)) ms (by simpa using h) (fun i => by
      have := hs i.succ
      simpa [Fin.tail] using this)
    rw [Fin.sum_univ_succ, Fin.sum_univ_succ]
    simp only [along, Fin.cons_zero, Fin.cons_succ]
    have ev : vals.set m.var m.target = after vals (σ 0) := by rw [h0.1, h0.2]; rfl
    have eh : ∀ i : Fin n, holds (n + 1) (m :: ms) i.succ = holds n ms i := by intro i; simp [holds]
    have eh0 : holds (n + 1) (m :: ms) 0 = m.hold := by simp [holds]
    constructor
    · rw [moveCount, ev, Nat.cast_add, i1]
      congr 1
      unfold countStep
      rw [h0.1, h0.2]
      split_ifs <;> simp
    · rw [timeSpent, ev, i2]
      simp only [eh, eh0]
      congr 1
      unfold inCaseInd
      split_ifs <;> simp

theorem along_map₂ {α β γ : Type} (φ : α → β → γ) (f : List Nat → Step → α) (g : List Nat → Step → β) {n : Nat} :
    ∀ (σ : Fin n → Step) (vals : List Nat) (i : Fin n),
    along (fun vals s => φ (f vals s) (g vals s)) σ vals i = φ (along f σ vals i) (along g σ vals i) := by
  induction n with
  | zero => intro σ vals i; exact i.elim0
  | succ n ih =>
    intro σ vals i
    refine Fin.cases ?_ (fun j => ?_) i
    · simp [along]
    · simp only [along, Fin.cons_succ]; exact ih _ _ j

section
variable {net : SampleNet} {N : Ctbn} (hD : Describes net N) (hOK : N.OK)
include hD hOK

theorem usable_inverse (hpos : N.Leaves) : Usable N N.inverseRates where
  nonneg := by
    intro vals hr v hv y hy
    have h1 := rates_nonneg hD hOK hr hv hy
    have h2 := outRate_pos hD hOK hr hv
    have h3 : (0 : ℝ) < N.exitRate vals v := by exact_mod_cast hpos vals hr v hv
    unfold Ctbn.inverseRates
    positivity
  pos := by
    intro vals hr
    rw [totalRate_inverse hD hOK hr]
    have hne : Nonempty (Fin N.vars.length) := ⟨⟨0, List.length_pos_iff.2 hOK.nonempty⟩⟩
    exact Finset.sum_pos (fun w _ => one_div_pos.2 (by exact_mod_cast hpos vals hr _ (List.getElem_mem _))) Finset.univ_nonempty
  closed := by
    intro vals hr s hs
    obtain ⟨v, h1, h2⟩ := mem_steps.1 hs
    exact inRange_set hOK hr h1 h2

theorem inverse_at (hc : N.Conservative) {v : Label} (hv : v ∈ N.vars) {x y : Nat} (hxy : y ≠ x) {u vals : List Nat} (hr : N.InRange vals)
    (hcase : InCase N v x u vals) : N.inverseRates vals v y = N.inverseAt v u x y := by
  unfold Ctbn.inverseRates Ctbn.inverseAt Ctbn.rates
  rw [← hc vals hr v hv]
  have e1 : N.exitRate vals v = N.exitAt v u x := by
    unfold Ctbn.exitRate Ctbn.exitAt Ctbn.intensity Ctbn.intensityAt
    rw [hcase.1, hcase.2]
  have e2 : N.intensity vals v y = N.intensityAt v u x y := by
    unfold Ctbn.intensity Ctbn.intensityAt
    rw [hcase.1, hcase.2]
  rw [e1, e2, hcase.1, if_neg hxy]
  ring

theorem count_prob (hc : N.Conservative) {v : Label} (hv : v ∈ N.vars) {x y : Nat} (hxy : y ≠ x) (hy : y < N.card v) {u vals : List Nat} (hr : N.InRange vals) :
    ∑ s ∈ steps N, stepProb N N.inverseRates vals s * countStep N v x y u vals s
      = inCaseInd N v x u vals * (N.inverseAt v u x y / totalRate N N.inverseRates vals) := by
  obtain ⟨k, hk⟩ := List.mem_iff_getElem?.1 hv
  unfold countStep inCaseInd
  by_cases hcase : InCase N v x u vals
  · rw [if_pos hcase, one_mul, Finset.sum_eq_single (⟨k, y⟩ : Step)]
    · rw [if_pos ⟨hcase, hk, rfl⟩, mul_one]
      unfold stepProb
      have hg : N.vars.getD k "" = v := by simp [List.getD_eq_getElem?_getD, hk]
      rw [hg, inverse_at hD hOK hc hv hxy hr hcase]
    · rintro ⟨j, z⟩ _ hne
      rw [if_neg, mul_zero]
      rintro ⟨-, h2, h3⟩
      dsimp only at h2 h3
      apply hne
      have : j = k := (List.getElem?_inj (List.getElem?_eq_some_iff.1 h2).1 hOK.nodup).1 (h2.trans hk.symm)
      subst this; subst h3; rfl
    · intro h
      exact absurd (mem_steps.2 ⟨v, hk, hy⟩) h
  · rw [if_neg hcase, zero_mul]
    refine Finset.sum_eq_zero (fun s _ => ?_)
    rw [if_neg (fun h => hcase h.1), mul_zero]

variable {U : Type} [MeasurableSpace U] {P : Measure U} [IsProbabilityMeasure P] (C : Categorical U P)

omit [IsProbabilityMeasure P] in
theorem measurable_moves {L : List MoveEvent} (hL : Proper N L) : MeasurableSet {ω | MovesAre (net.movesR L.length (drawsAt (m := N.vars.length) C ω) net.initClock) L} := by
  have hr := zeros_inRange hOK
  have h := measurableSet_moveSet hD hOK C hL hr (fun _ => False)
  have h2 : MeasurableSet {ω | ((fun _ => 0), ω) ∈ moveSet net N C L (N.vars.map (fun _ => 0)) (fun _ => False)} := measurable_prodMk_left h
  convert h2 using 1
  have : clockAt N (N.vars.map (fun _ => 0)) (fun _ => False) (fun _ => 0) 0 = net.initClock := by
    unfold clockAt SampleNet.initClock
    rw [hD.vnames]
    congr 1
    apply List.ext_getElem (by simp)
    intro i h1 h2
    simp
  unfold moveSet
  simp only [Set.mem_ofPred_eq, this]

/-- The moves of the first `n` passes of the loop of `CTBN_Sample`, as a random variable. -/
def sampledMoves (net : SampleNet) {m : Nat} (C : Categorical U P) (n : Nat) (ω : ℕ → (Fin m → ℝ) × U) : List Move :=
  movesOf (net.movesR n (drawsAt C ω) net.initClock)

/-- **C181.** -/
theorem sample_stats (hc : N.Conservative) {v : Label} (hv : v ∈ N.vars) {x y : Nat} (hxy : y ≠ x) (hy : y < N.card v) (u : List Nat) (n : Nat) :
    let zeros := N.vars.map (fun _ => 0)
    let M := fun ω => (moveCount N v x y u zeros (sampledMoves net C n ω) : ℝ)
    let T := fun ω => timeSpent N v x u zeros (sampledMoves net C n ω)
    let r := N.inverseAt v u x y
    Integrable M (drawLaw N.vars.length P) ∧ Integrable T (drawLaw N.vars.length P) ∧
    ∫ ω, M ω ∂drawLaw N.vars.length P = r * ∫ ω, T ω ∂drawLaw N.vars.length P ∧
    Integrable (fun ω => (M ω - r * T ω) ^ 2) (drawLaw N.vars.length P) ∧
    ∫ ω, (M ω - r * T ω) ^ 2 ∂drawLaw N.vars.length P = ∫ ω, M ω ∂drawLaw N.vars.length P := by
  intro zeros M T r
  have hpos := leaves_of_conservative hD hOK hc
  have hU := usable_inverse hD hOK hpos
  have hr : N.InRange zeros := zeros_inRange hOK
  have hm : ∀ L : List MoveEvent, L.length = n → Proper N L → MeasurableSet {ω | MovesAre (net.movesR n (drawsAt (m := N.vars.length) C ω) net.initClock) L} := by
    intro L hl hL; subst hl; exact measurable_moves hD hOK C hL
  have hl : ∀ L : List MoveEvent, L.length = n → Proper N L → drawLaw N.vars.length P {ω | MovesAre (net.movesR n (drawsAt C ω) net.initClock) L}
      = ENNReal.ofReal (jumpLaw N N.inverseRates L zeros) := by
    intro L hl hL; subst hl; exact sample_moves_law C hD hOK hpos hL
  have hstat : ∀ σ ∈ paths N n, ∀ ω ∈ onPath (fun ω => net.movesR n (drawsAt (m := N.vars.length) C ω) net.initClock) σ,
      M ω = ∑ i, along (countStep N v x y u) σ zeros i ∧
      T ω = ∑ i, along (fun vals _ => inCaseInd N v x u vals) σ zeros i * holds n (sampledMoves net C n ω) i := by
    intro σ _ ω hω
    simp only [onPath, Set.mem_ofPred_eq, movesAre_events] at hω
    obtain ⟨ms, a1, a2, a3, -⟩ := hω
    have e : sampledMoves net C n ω = ms := by unfold sampledMoves; rw [a1]; rfl
    have := stats_on_path N v x y u σ zeros ms a2 a3
    simp only [M, T, e]
    exact this
  have hR : ∀ σ ∈ paths N n, ∀ i, 0 < ratesAlong N N.inverseRates σ zeros i := fun σ hσ => ratesAlong_pos hU hr hσ
  have hb := fun vals (h : N.InRange vals) => count_prob hD hOK hc hv hxy hy (u := u) h
  have hb2 : ∀ vals s, countStep N v x y u vals s ^ 2 = countStep N v x y u vals s := by
    intro vals s; unfold countStep; split_ifs <;> simp
  have hc2 : ∀ vals, inCaseInd N v x u vals ^ 2 = inCaseInd N v x u vals := by
    intro vals; unfold inCaseInd; split_ifs <;> simp
  have hbc : ∀ vals s, countStep N v x y u vals s * inCaseInd N v x u vals = countStep N v x y u vals s := by
    intro vals s; unfold countStep inCaseInd
    by_cases h : InCase N v x u vals
    · simp [h]
    · simp [h]
  -- the count
  obtain ⟨iM, eM⟩ := expectation hU hr hm hl (G := M) (F := fun σ _ => ∑ i, along (countStep N v x y u) σ zeros i)
    (fun σ hσ ω hω => (hstat σ hσ ω hω).1) (fun σ hσ => by
      have : ∀ i, IsProbabilityMeasure (expMeasure (ratesAlong N N.inverseRates σ zeros i)) := fun i => isProbabilityMeasure_expMeasure (hR σ hσ i)
      exact integrable_const _)
  -- the time
  obtain ⟨iT, -⟩ := expectation hU hr hm hl (G := T)
    (F := fun σ h => ∑ i, ((fun _ => 0) i - (fun i => -along (fun vals _ => inCaseInd N v x u vals) σ zeros i) i * h i))
    (fun σ hσ ω hω => by rw [(hstat σ hσ ω hω).2]; simp [sampledMoves]) (fun σ hσ => (Clocks.linear_form (hR σ hσ) _ _).1)
  -- the compensated count
  have hD' : ∀ σ ∈ paths N n, ∀ ω ∈ onPath (fun ω => net.movesR n (drawsAt (m := N.vars.length) C ω) net.initClock) σ,
      M ω - r * T ω = ∑ i, (along (countStep N v x y u) σ zeros i
        - (r * along (fun vals _ => inCaseInd N v x u vals) σ zeros i) * holds n (sampledMoves net C n ω) i) := by
    intro σ hσ ω hω
    rw [(hstat σ hσ ω hω).1, (hstat σ hσ ω hω).2, Finset.mul_sum, ← Finset.sum_sub_distrib]
    exact Finset.sum_congr rfl (fun i _ => by ring)
  obtain ⟨iD, eD⟩ := expectation hU hr hm hl (G := fun ω => M ω - r * T ω) (F := fun σ h => ∑ i, (along (countStep N v x y u) σ zeros i
        - (r * along (fun vals _ => inCaseInd N v x u vals) σ zeros i) * h i)) hD' (fun σ hσ => (Clocks.linear_form (hR σ hσ) _ _).1)
  obtain ⟨iD2, eD2⟩ := expectation hU hr hm hl (G := fun ω => (M ω - r * T ω) ^ 2) (F := fun σ h => (∑ i, (along (countStep N v x y u) σ zeros i
        - (r * along (fun vals _ => inCaseInd N v x u vals) σ zeros i) * h i)) ^ 2)
        (fun σ hσ ω hω => by rw [hD' σ hσ ω hω]; rfl) (fun σ hσ => (Clocks.linear_form (hR σ hσ) _ _).2.2.1)
  have ealong : ∀ (σ : Fin n → Step) i, along (countStep N v x y u) σ zeros i
      - r * along (fun vals _ => inCaseInd N v x u vals) σ zeros i / ratesAlong N N.inverseRates σ zeros i
      = along (fun vals s => countStep N v x y u vals s - r * inCaseInd N v x u vals / totalRate N N.inverseRates vals) σ zeros i := by
    intro σ i
    rw [along_map₂ (fun a b : ℝ => a - b) (countStep N v x y u) (fun vals _ => r * inCaseInd N v x u vals / totalRate N N.inverseRates vals),
      along_map₂ (fun a b : ℝ => r * a / b) (fun vals _ => inCaseInd N v x u vals) (fun vals _ => totalRate N N.inverseRates vals)]
  have esq : ∀ (σ : Fin n → Step) i, (r * along (fun vals _ => inCaseInd N v x u vals) σ zeros i) ^ 2 / ratesAlong N N.inverseRates σ zeros i ^ 2
      = along (fun vals _ => (r * inCaseInd N v x u vals) ^ 2 / totalRate N N.inverseRates vals ^ 2) σ zeros i := by
    intro σ i
    rw [along_map₂ (fun a b : ℝ => (r * a) ^ 2 / b ^ 2) (fun vals _ => inCaseInd N v x u vals) (fun vals _ => totalRate N N.inverseRates vals)]
  refine ⟨iM, iT, ?_, iD2, ?_⟩
  · have h0 : ∫ ω, (M ω - r * T ω) ∂drawLaw N.vars.length P = 0 := by
      rw [eD, ← path_mean hU hb n hr]
      refine Finset.sum_congr rfl (fun σ hσ => ?_)
      rw [(Clocks.linear_form (hR σ hσ) _ _).2.1]
      congr 1
      exact Finset.sum_congr rfl (fun i _ => ealong σ i)
    rw [integral_sub iM (iT.const_mul r), integral_const_mul] at h0
    linarith
  · rw [eD2, eM]
    refine Eq.trans ?_ ((path_second hU hb hb2 hc2 hbc n hr).trans ?_)
    · refine Finset.sum_congr rfl (fun σ hσ => ?_)
      rw [(Clocks.linear_form (hR σ hσ) _ _).2.2.2]
      congr 1
      congr 1
      · exact Finset.sum_congr rfl (fun i _ => esq σ i)
      · congr 1
        exact Finset.sum_congr rfl (fun i _ => ealong σ i)
    · refine Finset.sum_congr rfl (fun σ hσ => ?_)
      have : ∀ i, IsProbabilityMeasure (expMeasure (ratesAlong N N.inverseRates σ zeros i)) := fun i => isProbabilityMeasure_expMeasure (hR σ hσ i)
      simp

/-! ## Consistency -/

omit hD hOK in
theorem moveCount_le (v : Label) (x y : Nat) (u : List Nat) (ms : List Move) : ∀ vals, moveCount N v x y u vals ms ≤ ms.length := by
  induction ms with
  | nil => intro vals; simp [moveCount]
  | cons m ms ih =>
    intro vals
    rw [moveCount, List.length_cons]
    have := ih (vals.set m.var m.target)
    split_ifs <;> omega

omit hD hOK in
theorem moveCount_dropLast (v : Label) (x y : Nat) (u : List Nat) (ms : List Move) : ∀ vals,
    moveCount N v x y u vals ms.dropLast ≤ moveCount N v x y u vals ms ∧ moveCount N v x y u vals ms ≤ moveCount N v x y u vals ms.dropLast + 1 := by
  induction ms with
  | nil => intro vals; simp [moveCount]
  | cons m ms ih =>
    intro vals
    cases ms with
    | nil => simp only [List.dropLast_singleton, moveCount]; split_ifs <;> simp
    | cons m' ms =>
      rw [List.dropLast_cons_cons, moveCount, moveCount]
      have := ih (vals.set m.var m.target)
      omega

omit hD hOK in
theorem movesR_length {n : Nat} : ∀ {d : Nat → PassDraws} {s : ClockState} {ms : List Move}, net.movesR n d s = .ok ms → ms.length = n := by
  induction n with
  | zero => intro d s ms h; simp only [SampleNet.movesR, Except.pure_eq_ok', Except.ok.injEq] at h; subst h; rfl
  | succ n ih =>
    intro d s ms h
    rw [SampleNet.movesR] at h
    cases h1 : net.passR (d 0) s with
    | error e => rw [h1] at h; cases h
    | ok p =>
      rw [h1] at h
      simp only [Except.bind_ok'] at h
      cases h2 : net.movesR n (fun j => d (j + 1)) p.2 with
      | error e => rw [h2] at h; cases h
      | ok ms' =>
        rw [h2] at h
        simp only [Except.bind_ok', Except.pure_eq_ok', Except.ok.injEq] at h
        subst h
        simp [ih h2]

omit hD hOK [IsProbabilityMeasure P] in
theorem sampledMoves_length {m : Nat} (n : Nat) (ω : ℕ → (Fin m → ℝ) × U) : (sampledMoves net C n ω).length ≤ n := by
  unfold sampledMoves movesOf
  split
  · next ms h => exact (movesR_length h).le
  · simp

/-- Chebyshev's inequality for the compensated count. -/
theorem sample_deviation (hc : N.Conservative) {v : Label} (hv : v ∈ N.vars) {x y : Nat} (hxy : y ≠ x) (hy : y < N.card v) (u : List Nat) (n : Nat)
    {δ : ℝ} (hδ : 0 < δ) :
    drawLaw N.vars.length P {ω | δ ≤ |(moveCount N v x y u (N.vars.map (fun _ => 0)) (sampledMoves net C n ω) : ℝ)
        - N.inverseAt v u x y * timeSpent N v x u (N.vars.map (fun _ => 0)) (sampledMoves net C n ω)|} ≤ ENNReal.ofReal (n / δ ^ 2) := by
  obtain ⟨iM, -, -, iD2, eD2⟩ := sample_stats hD hOK C hc hv hxy hy u n
  set M : (ℕ → (Fin N.vars.length → ℝ) × U) → ℝ := fun ω => (moveCount N v x y u (N.vars.map (fun _ => 0)) (sampledMoves net C n ω) : ℝ) with hM
  set D : (ℕ → (Fin N.vars.length → ℝ) × U) → ℝ := fun ω => M ω - N.inverseAt v u x y * timeSpent N v x u (N.vars.map (fun _ => 0)) (sampledMoves net C n ω) with hDdef
  have hle : ∫ ω, M ω ∂drawLaw N.vars.length P ≤ n := by
    have : ∫ ω, M ω ∂drawLaw N.vars.length P ≤ ∫ _, (n : ℝ) ∂drawLaw N.vars.length P := by
      refine integral_mono iM (integrable_const _) (fun ω => ?_)
      simp only [hM]
      exact_mod_cast (moveCount_le v x y u _ _).trans (sampledMoves_length C n ω)
    simpa using this
  have hmark := mul_meas_ge_le_integral_of_nonneg (μ := drawLaw N.vars.length P) (f := fun ω => D ω ^ 2) (.of_forall (fun ω => sq_nonneg _)) iD2 (δ ^ 2)
  have hset : {ω | δ ≤ |D ω|} ⊆ {ω | δ ^ 2 ≤ D ω ^ 2} := by
    intro ω h
    simp only [Set.mem_ofPred_eq] at h ⊢
    rw [← sq_abs (D ω)]
    exact pow_le_pow_left₀ hδ.le h 2
  refine (measure_mono hset).trans ?_
  rw [← ofReal_measureReal]
  refine ENNReal.ofReal_le_ofReal ?_
  rw [le_div_iff₀ (by positivity)]
  calc (drawLaw N.vars.length P).real {ω | δ ^ 2 ≤ D ω ^ 2} * δ ^ 2 = δ ^ 2 * (drawLaw N.vars.length P).real {ω | δ ^ 2 ≤ D ω ^ 2} := mul_comm _ _
    _ ≤ _ := hmark
    _ = ∫ ω, M ω ∂drawLaw N.vars.length P := eD2
    _ ≤ n := hle

omit hD hOK in
theorem estimate_error (v : Label) (x y : Nat) (u vals : List Nat) (ms : List Move) {r : ℝ} (hT : 0 ≤ timeSpent N v x u vals ms) :
    |estimateAt N v x y u vals ms - r| * (timeSpent N v x u vals ms + 1)
      ≤ |(moveCount N v x y u vals ms : ℝ) - r * timeSpent N v x u vals ms| + 1 + |r| := by
  obtain ⟨h1, h2⟩ := moveCount_dropLast (N := N) v x y u ms vals
  have h1' : (moveCount N v x y u vals ms.dropLast : ℝ) ≤ moveCount N v x y u vals ms := by exact_mod_cast h1
  have h2' : (moveCount N v x y u vals ms : ℝ) ≤ moveCount N v x y u vals ms.dropLast + 1 := by exact_mod_cast h2
  set T := timeSpent N v x u vals ms
  set M := (moveCount N v x y u vals ms : ℝ)
  have hpos : 0 < T + 1 := by linarith
  have e : estimateAt N v x y u vals ms - r = ((moveCount N v x y u vals ms.dropLast : ℝ) + 1 - r * (T + 1)) / (T + 1) := by
    unfold estimateAt
    rw [div_sub' hpos.ne', mul_comm r]
  rw [e, abs_div, abs_of_pos hpos, div_mul_cancel₀ _ hpos.ne', abs_le]
  have ha := abs_le.1 (le_refl |M - r * T|)
  have hb := abs_le.1 (le_refl |r|)
  constructor <;> nlinarith [ha.1, ha.2, hb.1, hb.2]


/-- **C182.** The longer the trajectory, the more likely it is that the estimate of an intensity from a sampled trajectory is near the intensity
divided by the square of the exit intensity, as long as the case keeps a positive share of the moves. -/
theorem sample_estimate_tendsto (hc : N.Conservative) {v : Label} (hv : v ∈ N.vars) {x y : Nat} (hxy : y ≠ x) (hy : y < N.card v) (u : List Nat)
    {ε κ : ℝ} (hε : 0 < ε) (hκ : 0 < κ) :
    Tendsto (fun n : ℕ => drawLaw N.vars.length P {ω |
      ε ≤ |estimateAt N v x y u (N.vars.map (fun _ => 0)) (sampledMoves net C n ω) - N.inverseAt v u x y| ∧
      κ * n ≤ timeSpent N v x u (N.vars.map (fun _ => 0)) (sampledMoves net C n ω)}) atTop (𝓝 0) := by
  set r := N.inverseAt v u x y
  have hlim : Tendsto (fun n : ℕ => ENNReal.ofReal (4 / (ε * κ) ^ 2 / n)) atTop (𝓝 0) := by
    have := (tendsto_const_div_atTop_nhds_zero_nat (4 / (ε * κ) ^ 2))
    have h2 := ENNReal.tendsto_ofReal this
    rwa [ENNReal.ofReal_zero] at h2
  refine tendsto_of_tendsto_of_tendsto_of_le_of_le' tendsto_const_nhds hlim (.of_forall (fun _ => zero_le)) ?_
  obtain ⟨n₀, hn₀⟩ := exists_nat_gt (2 * (1 + |r|) / (ε * κ))
  filter_upwards [eventually_ge_atTop (n₀ + 1)] with n hn
  have hn' : (n₀ : ℝ) + 1 ≤ n := by exact_mod_cast hn
  have hnpos : (0 : ℝ) < n := by have : (0 : ℝ) ≤ n₀ := Nat.cast_nonneg _; linarith
  have hεκ : 0 < ε * κ := mul_pos hε hκ
  have hbig : 1 + |r| ≤ ε * κ * n / 2 := by
    rw [div_lt_iff₀ hεκ] at hn₀
    nlinarith
  have hδ : 0 < ε * κ * n / 2 := by positivity
  refine (measure_mono ?_).trans ((sample_deviation hD hOK C hc hv hxy hy u n hδ).trans (le_of_eq ?_))
  · rintro ω ⟨h1, h2⟩
    simp only [Set.mem_ofPred_eq]
    have hT : 0 ≤ timeSpent N v x u (N.vars.map (fun _ => 0)) (sampledMoves net C n ω) := le_trans (by positivity) h2
    have h3 := estimate_error (N := N) v x y u (N.vars.map (fun _ => 0)) (sampledMoves net C n ω) (r := r) hT
    have h4 : ε * (κ * n) ≤ |estimateAt N v x y u (N.vars.map (fun _ => 0)) (sampledMoves net C n ω) - r|
        * (timeSpent N v x u (N.vars.map (fun _ => 0)) (sampledMoves net C n ω) + 1) :=
      mul_le_mul h1 (by linarith) (by positivity) (abs_nonneg _)
    nlinarith
  · congr 1
    field_simp
    ring

/-- **C182** (refuted for the intensity itself).  The estimate does not come near the intensity, unless the intensity is 0 or the exit intensity is 1. -/
theorem sample_estimate_misses (hc : N.Conservative) {v : Label} (hv : v ∈ N.vars) {x y : Nat} (hxy : y ≠ x) (hy : y < N.card v) (u : List Nat)
    (h0 : N.intensityAt v u x y ≠ 0) (hpos : 0 < N.exitAt v u x) (h1 : N.exitAt v u x ≠ 1) :
    ∃ ε > 0, ∀ κ > (0 : ℝ), Tendsto (fun n : ℕ => drawLaw N.vars.length P {ω |
      |estimateAt N v x y u (N.vars.map (fun _ => 0)) (sampledMoves net C n ω) - (N.intensityAt v u x y : ℝ)| < ε ∧
      κ * n ≤ timeSpent N v x u (N.vars.map (fun _ => 0)) (sampledMoves net C n ω)}) atTop (𝓝 0) := by
  have hne : N.inverseAt v u x y ≠ N.intensityAt v u x y := by
    unfold Ctbn.inverseAt
    intro h
    have hp : (0 : ℝ) < N.exitAt v u x := by exact_mod_cast hpos
    have hq : (N.intensityAt v u x y : ℝ) ≠ 0 := by exact_mod_cast h0
    rw [div_eq_iff (by positivity)] at h
    have h2 : (N.exitAt v u x : ℝ) ^ 2 = 1 := mul_left_cancel₀ hq (by linarith)
    have h3 : (N.exitAt v u x : ℝ) = 1 := by nlinarith
    exact h1 (by exact_mod_cast h3)
  have hd : 0 < |N.inverseAt v u x y - N.intensityAt v u x y| := abs_pos.2 (sub_ne_zero.2 hne)
  refine ⟨|N.inverseAt v u x y - N.intensityAt v u x y| / 2, by positivity, fun κ hκ => ?_⟩
  refine tendsto_of_tendsto_of_tendsto_of_le_of_le tendsto_const_nhds
    (sample_estimate_tendsto hD hOK C hc hv hxy hy u (half_pos hd) hκ) (fun _ => zero_le) (fun n => measure_mono ?_)
  rintro ω ⟨h2, h3⟩
  refine ⟨?_, h3⟩
  set e := estimateAt N v x y u (N.vars.map (fun _ => 0)) (sampledMoves net C n ω)
  have h4 := abs_sub_le (N.inverseAt v u x y) e (N.intensityAt v u x y)
  rw [abs_sub_comm (N.inverseAt v u x y) e] at h4
  linarith

/-! ## One variable with two states -/

omit hD hOK in
theorem single_state {v : Label} (h1 : N.vars = [v]) (a : Nat) : N.state [a] v = a := by
  unfold Ctbn.state; rw [h1]; simp

omit hD hOK in
theorem count_alternates {v : Label} (h1 : N.vars = [v]) (h2 : N.card v = 2) (h3 : N.parents v = []) {x y : Nat} (hx : x < 2) (hy : y < 2) (hxy : y ≠ x) {n : Nat} :
    ∀ {σ : Fin n → Step} {a : Nat}, a < 2 → σ ∈ paths N n → pathProb N N.inverseRates σ [a] ≠ 0 →
      (n : ℝ) ≤ 2 * ∑ i, along (countStep N v x y []) σ [a] i + if a = x then 0 else 1 := by
  induction n with
  | zero => intro σ a ha hσ hp; simp; split_ifs <;> norm_num
  | succ n ih =>
    intro σ a ha hσ hp
    rw [pathProb] at hp
    obtain ⟨p1, p2⟩ := mul_ne_zero_iff.1 hp
    simp only [paths, Fintype.mem_piFinset] at hσ
    obtain ⟨w, w1, w2⟩ := mem_steps.1 (hσ 0)
    rw [h1] at w1
    obtain ⟨w0, rfl⟩ : (σ 0).1 = 0 ∧ v = w := by
      obtain ⟨hlt, he⟩ := List.getElem?_eq_some_iff.1 w1
      have h0 : (σ 0).1 = 0 := by simpa using hlt
      simp only [h0, List.getElem_cons_zero] at he
      exact ⟨h0, he⟩
    rw [h2] at w2
    have hmove : (σ 0).2 ≠ a := by
      intro h
      apply p1
      unfold stepProb Ctbn.inverseRates Ctbn.rates
      rw [w0, h1]
      simp only [List.getD_cons_zero, single_state h1, h, if_true]
      simp
    have ev : after [a] (σ 0) = [(σ 0).2] := by unfold after; rw [w0]; rfl
    rw [ev] at p2
    have hrec := ih (σ := Fin.tail σ) (a := (σ 0).2) w2 (by simp only [paths, Fintype.mem_piFinset]; exact fun i => hσ i.succ) p2
    rw [Fin.sum_univ_succ]
    simp only [along, Fin.cons_zero, Fin.cons_succ, ev]
    have hcount : countStep N v x y [] [a] (σ 0) = if a = x then 1 else 0 := by
      unfold countStep
      have hps : N.parentStates [a] v = [] := by unfold Ctbn.parentStates; rw [h3]; rfl
      by_cases hax : a = x
      · rw [if_pos hax, if_pos ⟨⟨(single_state h1 a).trans hax, hps⟩, by rw [h1, w0]; rfl, by omega⟩]
      · rw [if_neg hax, if_neg (fun h => hax ((single_state h1 a).symm.trans h.1.1))]
    rw [hcount]
    push_cast
    by_cases hax : a = x
    · rw [if_pos hax, if_pos hax]
      rw [if_neg (by omega)] at hrec
      linarith
    · rw [if_neg hax, if_neg hax]
      rw [if_pos (by omega)] at hrec
      linarith

/-- **C183.** For a single variable with two states, the estimate from sampled trajectories converges in probability to the inverse of the intensity. -/
theorem sample_estimate_binary (hc : N.Conservative) {v : Label} (h1 : N.vars = [v]) (h2 : N.card v = 2) (h3 : N.parents v = []) {x y : Nat}
    (hx : x < 2) (hy : y < 2) (hxy : y ≠ x) {ε : ℝ} (hε : 0 < ε) :
    Tendsto (fun n : ℕ => drawLaw N.vars.length P {ω |
      ε ≤ |estimateAt N v x y [] [0] (sampledMoves net C n ω) - 1 / (N.intensityAt v [] x y : ℝ)|}) atTop (𝓝 0) := by
  have hv : v ∈ N.vars := by rw [h1]; simp
  have hz : N.vars.map (fun _ => 0) = [0] := by rw [h1]; rfl
  have hpos := leaves_of_conservative hD hOK hc
  have hU := usable_inverse hD hOK hpos
  have hr0 : N.InRange [x] := by
    refine ⟨by rw [h1]; rfl, ?_⟩
    rw [h1]
    intro w hw
    rw [List.mem_singleton] at hw
    subst hw
    rw [single_state h1, h2]; exact hx
  have hcase : InCase N v x [] [x] := ⟨single_state h1 x, by unfold Ctbn.parentStates; rw [h3]; rfl⟩
  have hq : (N.exitAt v [] x : ℝ) = N.intensityAt v [] x y ∧ 0 < (N.intensityAt v [] x y : ℝ) := by
    have e1 : N.exitRate [x] v = N.exitAt v [] x := by
      unfold Ctbn.exitRate Ctbn.exitAt Ctbn.intensity Ctbn.intensityAt
      rw [hcase.1, hcase.2]
    have e2 : N.outRate [x] v = N.intensityAt v [] x y := by
      unfold Ctbn.outRate
      rw [h2]
      have : N.rates [x] v x = 0 := by unfold Ctbn.rates; rw [hcase.1, if_pos rfl]
      have h' : N.rates [x] v y = N.intensityAt v [] x y := by
        unfold Ctbn.rates Ctbn.intensity Ctbn.intensityAt; rw [hcase.1, hcase.2, if_neg hxy]
      have hcases : (x = 0 ∧ y = 1) ∨ (x = 1 ∧ y = 0) := by omega
      rcases hcases with ⟨rfl, rfl⟩ | ⟨rfl, rfl⟩
      · simp [List.range_succ, this, h']
      · simp [List.range_succ, this, h']
    have h4 := hc [x] hr0 v hv
    rw [e1, e2] at h4
    refine ⟨h4, ?_⟩
    rw [← e2]; exact outRate_pos hD hOK hr0 hv
  have hr : N.inverseAt v [] x y = 1 / (N.intensityAt v [] x y : ℝ) := by
    unfold Ctbn.inverseAt
    rw [hq.1]
    have := hq.2.ne'
    field_simp
  set q := (N.intensityAt v [] x y : ℝ)
  have hqp : 0 < q := hq.2
  have hκ : (0 : ℝ) < q / 4 := by positivity
  have hA := sample_estimate_tendsto hD hOK C hc hv hxy (by rw [h2]; exact hy) [] hε hκ
  rw [hz, hr] at hA
  -- the time is rarely short
  have hB : Tendsto (fun n : ℕ => drawLaw N.vars.length P {ω | timeSpent N v x [] [0] (sampledMoves net C n ω) < q / 4 * n}) atTop (𝓝 0) := by
    have hlim : Tendsto (fun n : ℕ => ENNReal.ofReal (64 / n)) atTop (𝓝 0) := by
      have h2 := ENNReal.tendsto_ofReal (tendsto_const_div_atTop_nhds_zero_nat (64 : ℝ))
      rwa [ENNReal.ofReal_zero] at h2
    refine tendsto_of_tendsto_of_tendsto_of_le_of_le' tendsto_const_nhds hlim (.of_forall (fun _ => zero_le)) ?_
    filter_upwards [eventually_ge_atTop 4] with n hn
    have hn' : (4 : ℝ) ≤ n := by exact_mod_cast hn
    have hδ : (0 : ℝ) < n / 8 := by positivity
    have hdev := sample_deviation hD hOK C hc hv hxy (by rw [h2]; exact hy) [] n hδ
    rw [hz, hr] at hdev
    have hae : ∀ᵐ ω ∂drawLaw N.vars.length P, (n : ℝ) ≤ 2 * (moveCount N v x y [] [0] (sampledMoves net C n ω) : ℝ) + 1 := by
      have hrz : N.InRange [0] := by rw [← hz]; exact zeros_inRange hOK
      have hm : ∀ L : List MoveEvent, L.length = n → Proper N L → MeasurableSet {ω | MovesAre (net.movesR n (drawsAt (m := N.vars.length) C ω) net.initClock) L} := by
        intro L hl hL; subst hl; exact measurable_moves hD hOK C hL
      have hl : ∀ L : List MoveEvent, L.length = n → Proper N L → drawLaw N.vars.length P {ω | MovesAre (net.movesR n (drawsAt C ω) net.initClock) L}
          = ENNReal.ofReal (jumpLaw N N.inverseRates L [0]) := by
        intro L hl hL; subst hl; rw [← hz]; exact sample_moves_law C hD hOK hpos hL
      have hone := measure_paths hU hrz hm hl
      have hmeas : MeasurableSet (⋃ σ ∈ paths N n, onPath (fun ω => net.movesR n (drawsAt (m := N.vars.length) C ω) net.initClock) σ) :=
        Finset.measurableSet_biUnion _ (fun σ hσ => measurableSet_onPath hm hσ)
      have hall : ∀ᵐ ω ∂drawLaw N.vars.length P, ∀ σ ∈ paths N n, pathProb N N.inverseRates σ [0] = 0 →
          ω ∉ onPath (fun ω => net.movesR n (drawsAt (m := N.vars.length) C ω) net.initClock) σ := by
        have : Countable (paths N n) := inferInstance
        refine (ae_ball_iff (paths N n).countable_toSet).2 (fun σ hσ => ?_)
        by_cases h0 : pathProb N N.inverseRates σ [0] = 0
        · have h4 := measure_onPath hU hrz hm hl hσ
          rw [h0, ENNReal.ofReal_zero] at h4
          filter_upwards [measure_eq_zero_iff_ae_notMem.1 h4] with ω hω _
          exact hω
        · exact .of_forall (fun ω h => absurd h h0)
      filter_upwards [(mem_ae_iff_prob_eq_one hmeas).2 hone, hall] with ω h4 h5
      simp only [Set.mem_iUnion] at h4
      obtain ⟨σ, hσ, hω⟩ := h4
      have hne : pathProb N N.inverseRates σ [0] ≠ 0 := fun h => h5 σ hσ h hω
      have h6 := count_alternates h1 h2 h3 hx hy hxy (a := 0) (by omega) hσ hne
      simp only [onPath, Set.mem_ofPred_eq, movesAre_events] at hω
      obtain ⟨ms, a1, a2, a3, -⟩ := hω
      have e : sampledMoves net C n ω = ms := by unfold sampledMoves; rw [a1]; rfl
      rw [e, (stats_on_path N v x y [] σ [0] ms a2 a3).1]
      refine h6.trans ?_
      split_ifs <;> linarith
    calc drawLaw N.vars.length P {ω | timeSpent N v x [] [0] (sampledMoves net C n ω) < q / 4 * n}
        ≤ drawLaw N.vars.length P {ω | (n : ℝ) / 8 ≤ |(moveCount N v x y [] [0] (sampledMoves net C n ω) : ℝ)
            - 1 / q * timeSpent N v x [] [0] (sampledMoves net C n ω)|} := by
          refine measure_mono_ae ?_
          filter_upwards [hae] with ω hω h
          replace h : timeSpent N v x [] [0] (sampledMoves net C n ω) < q / 4 * n := h
          show (n : ℝ) / 8 ≤ _
          refine le_trans ?_ (le_abs_self _)
          have : 1 / q * timeSpent N v x [] [0] (sampledMoves net C n ω) ≤ n / 4 := by
            rw [one_div_mul_eq_div, div_le_iff₀ hqp]
            linarith
          linarith
      _ ≤ ENNReal.ofReal (n / (n / 8) ^ 2) := hdev
      _ = ENNReal.ofReal (64 / n) := by
          congr 1
          have : (n : ℝ) ≠ 0 := by linarith
          field_simp
          norm_num
  have hsum := hA.add hB
  rw [add_zero] at hsum
  refine tendsto_of_tendsto_of_tendsto_of_le_of_le tendsto_const_nhds hsum (fun _ => zero_le) (fun n => ?_)
  refine (measure_mono ?_).trans (measure_union_le _ _)
  intro ω hω
  by_cases h : timeSpent N v x [] [0] (sampledMoves net C n ω) < q / 4 * n
  · exact .inr h
  · exact .inl ⟨hω, not_lt.1 h⟩

end

end

end PyCTBN
