import Verif.Props.SampleBridge
import Verif.Lemmas.PathLLN

/-!
# The long run of sampled trajectories: C190, C191, C192
-/

open MeasureTheory ProbabilityTheory Filter
open scoped ENNReal Topology

namespace PyCTBN
open Spec JumpPaths

noncomputable section

/-! ## Sums over a list of moves -/

/-- The sum of the increments over a list of moves. -/
def listTotal (e : Increment) : List Nat → ℝ → List Move → ℝ
  | _, _, [] => 0
  | vals, t, m :: ms => e vals t ⟨m.var, m.target⟩ m.hold + listTotal e (vals.set m.var m.target) (t + m.hold) ms

theorem listTotal_on_path (e : Increment) {n : Nat} : ∀ (σ : Fin n → Step) (vals : List Nat) (t : ℝ) (ms : List Move), ms.length = n →
    (∀ i : Fin n, (ms[i.val]?).map (fun m => (m.var, m.target)) = some ((σ i).1, (σ i).2)) → listTotal e vals t ms = total e σ vals t (holds n ms) := by
  induction n with
  | zero =>
    intro σ vals t ms h _
    have : ms = [] := List.length_eq_zero_iff.1 h
    subst this
    simp [listTotal, total]
  | succ n ih =>
    intro σ vals t ms h hs
    obtain ⟨m, ms, rfl⟩ : ∃ m ms', ms = m :: ms' := by
      cases ms with
      | nil => simp at h
      | cons m ms => exact ⟨m, ms, rfl⟩
    have h0 := hs 0
    simp only [Fin.val_zero, List.getElem?_cons_zero, Option.map_some, Option.some.injEq, Prod.mk.injEq] at h0
    have i1 := ih (Fin.tail σ) (after vals (σ 0)) (t + m.hold) ms (by simpa using h) (fun i => by
      have := hs i.succ
      simpa [Fin.tail] using this)
    have ev : vals.set m.var m.target = after vals (σ 0) := by rw [h0.1, h0.2]; rfl
    have es : (⟨m.var, m.target⟩ : Step) = σ 0 := by rw [h0.1, h0.2]
    have eh0 : holds (n + 1) (m :: ms) 0 = m.hold := by simp [holds]
    have eh : Fin.tail (holds (n + 1) (m :: ms)) = holds n ms := by funext i; simp [holds, Fin.tail]
    rw [listTotal, total, ev, es, i1, eh0, eh]

/-- The indicator of circumstances. -/
def caseInd (N : Ctbn) (v : Label) (L : List Label) (x : Nat) (u : List Nat) (vals : List Nat) : ℝ := if Circumstances N v L x u vals then 1 else 0

/-- The indicator of a step of `v` to `y` in these circumstances. -/
def caseStep (N : Ctbn) (v : Label) (L : List Label) (x y : Nat) (u : List Nat) (vals : List Nat) (s : Step) : ℝ :=
  if Circumstances N v L x u vals ∧ N.vars[s.1]? = some v ∧ s.2 = y then 1 else 0

theorem rawMatches_cases {N : Ctbn} {r : ℚ × List Nat} (hlen : r.2.length = N.vars.length) {v : Label} (hv : v ∈ N.vars) {L : List Label} (hL : ∀ p ∈ L, p ∈ N.vars)
    (x : Nat) (u : List Nat) : rawMatches N.vars v L x u (castRow r) = decide (Circumstances N v L x u r.2) := by
  unfold rawMatches
  rw [rawState_castRow hlen hv]
  have e : L.map (rawState N.vars (castRow r)) = (L.map (N.state r.2)).map (fun z : Nat => some (z : ℤ)) := by
    rw [List.map_map]
    exact List.map_congr_left (fun p hp => rawState_castRow hlen (hL p hp))
  rw [e, ← Bool.decide_and]
  refine decide_eq_decide.2 ?_
  unfold Circumstances
  refine and_congr (by simp) ?_
  constructor
  · intro h
    exact List.map_injective_iff.2 (fun a b hab => by simpa using hab) h
  · intro h; rw [h]

theorem rowsOfMoves_cons (t : ℝ) (vals : List Nat) (ms : List Move) : ∃ rs, SampleNet.rowsOfMoves t vals ms = (round4R t, vals) :: rs ∧ (rs = [] ↔ ms = []) := by
  cases ms with
  | nil => exact ⟨[], rfl, by simp⟩
  | cons m ms =>
    refine ⟨_, rfl, ?_⟩
    cases ms <;> simp [SampleNet.rowsOfMoves]

theorem terminate_head (r : ℚ × List Nat) (rs : List (ℚ × List Nat)) : ∃ b l, SampleNet.terminate (r :: rs) = b :: l ∧ b.1 = r.1 ∧
    (rs = [] → b.2 = r.2.map (fun _ => (-1 : ℤ))) ∧ (rs ≠ [] → b = castRow r) := by
  cases rs with
  | nil => exact ⟨_, _, terminate_single r, rfl, fun _ => rfl, fun h => absurd rfl h⟩
  | cons r' rs => exact ⟨_, _, terminate_cons₂ r r' rs, rfl, fun h => by simp at h, fun _ => rfl⟩

/-- The statistics of the rows of a list of moves. -/
theorem rows_sums {N : Ctbn} (hOK : N.OK) {v : Label} (hv : v ∈ N.vars) {L : List Label} (hL : ∀ p ∈ L, p ∈ N.vars) {x y : Nat} (hxy : y ≠ x) (u : List Nat) (ms : List Move) :
    ∀ {t : ℝ} {vals : List Nat}, vals.length = N.vars.length →
      (rawResidence N.vars [SampleNet.terminate (SampleNet.rowsOfMoves t vals ms)] v L x u : ℝ) = listTotal (linStep (fun _ _ => 0) (caseInd N v L x u)) vals t ms ∧
      (rawTransitions N.vars [SampleNet.terminate (SampleNet.rowsOfMoves t vals ms)] v L x y u : ℝ) ≤ listTotal (linStep (caseStep N v L x y u) (fun _ => 0)) vals t ms ∧
      listTotal (linStep (caseStep N v L x y u) (fun _ => 0)) vals t ms ≤ rawTransitions N.vars [SampleNet.terminate (SampleNet.rowsOfMoves t vals ms)] v L x y u + 1 := by
  induction ms with
  | nil =>
    intro t vals hlen
    rw [SampleNet.rowsOfMoves, terminate_single]
    simp [rawTransitions, rawResidence, consecutive, listTotal]
  | cons m ms ih =>
    intro t vals hlen
    have hlen' : (vals.set m.var m.target).length = N.vars.length := by rw [List.length_set]; exact hlen
    obtain ⟨i1, i2, i3⟩ := ih (t := t + m.hold) hlen'
    obtain ⟨rs, hrs, hnil⟩ := rowsOfMoves_cons (t + m.hold) (vals.set m.var m.target) ms
    obtain ⟨b, l, hbl, hb1, hb2, hb3⟩ := terminate_head (round4R (t + m.hold), vals.set m.var m.target) rs
    have hcons : ([SampleNet.terminate (SampleNet.rowsOfMoves t vals (m :: ms))]).flatMap consecutive
        = (castRow (round4R t, vals), b) :: ([SampleNet.terminate (SampleNet.rowsOfMoves (t + m.hold) (vals.set m.var m.target) ms)]).flatMap consecutive := by
      rw [SampleNet.rowsOfMoves, hrs, terminate_cons₂, hbl]
      simp [consecutive_cons₂]
    have hmatch := rawMatches_cases (r := (round4R t, vals)) hlen hv hL x u
    dsimp only at hmatch
    refine ⟨?_, ?_⟩
    · unfold rawResidence at i1 ⊢
      rw [hcons, List.filter_cons]
      dsimp only
      rw [hmatch, listTotal, ← i1]
      unfold linStep caseInd
      by_cases hcase : Circumstances N v L x u vals
      · rw [if_pos (by simp [hcase]), if_pos hcase, List.map_cons, List.sum_cons, Rat.cast_add, Rat.cast_sub]
        dsimp only
        rw [hb1]
        simp [castRow]
      · rw [if_neg (by simp [hcase]), if_neg hcase]
        simp
    · have e : (rawTransitions N.vars [SampleNet.terminate (SampleNet.rowsOfMoves t vals (m :: ms))] v L x y u : ℝ)
          = rawTransitions N.vars [SampleNet.terminate (SampleNet.rowsOfMoves (t + m.hold) (vals.set m.var m.target) ms)] v L x y u
            + if Circumstances N v L x u vals ∧ rawState N.vars b v = some (y : ℤ) then 1 else 0 := by
        unfold rawTransitions
        rw [hcons, List.filter_cons]
        dsimp only
        rw [hmatch]
        by_cases hcase : Circumstances N v L x u vals ∧ rawState N.vars b v = some (y : ℤ)
        · rw [if_pos (by simp [hcase.1, hcase.2]), if_pos hcase, List.length_cons]
          push_cast
          rfl
        · rw [if_neg (by simpa using hcase), if_neg hcase, add_zero]
      rw [e, listTotal]
      by_cases hms : ms = []
      · subst hms
        have hbs : rawState N.vars b v ≠ some (y : ℤ) := by
          unfold rawState
          rw [hb2 (hnil.2 rfl)]
          intro hh
          simp only [List.getElem?_map, Option.map_eq_some_iff] at hh
          obtain ⟨z, -, hz⟩ := hh
          omega
        have e0 : rawTransitions N.vars [SampleNet.terminate (SampleNet.rowsOfMoves (t + m.hold) (vals.set m.var m.target) [])] v L x y u = 0 := by
          rw [SampleNet.rowsOfMoves, terminate_single]
          simp [rawTransitions, consecutive]
        rw [if_neg (fun h => hbs h.2), e0, listTotal]
        unfold linStep caseStep
        constructor <;> split_ifs <;> norm_num
      · have hbs : rawState N.vars b v = some ((N.state (vals.set m.var m.target) v : Nat) : ℤ) := by
          rw [hb3 (fun h => hms (hnil.1 h))]
          exact rawState_castRow hlen' hv
        have e1 : linStep (caseStep N v L x y u) (fun _ => 0) vals t ⟨m.var, m.target⟩ m.hold
            = if Circumstances N v L x u vals ∧ rawState N.vars b v = some (y : ℤ) then 1 else 0 := by
          unfold linStep caseStep
          rw [hbs, zero_mul, add_zero]
          refine if_congr ?_ rfl rfl
          refine and_congr_right (fun hcase => ?_)
          have := moved_iff hOK hlen hv hxy hcase.1 m
          dsimp only
          rw [← this]
          simp
        rw [e1]
        constructor <;> linarith

/-! ## The law of large numbers for sampled rows -/

section
variable {net : SampleNet} {N : Ctbn} (hD : Describes net N) (hOK : N.OK)
include hD hOK

theorem connected_inverse (hc : N.Conservative) (hirr : N.Irreducible) : Connected N N.inverseRates := by
  have hpos := leaves_of_conservative hD hOK hc
  have hU := usable_inverse hD hOK hpos
  intro a b ha hb
  have key : ∀ c, Relation.ReflTransGen N.Moves a c → N.InRange c ∧
      Relation.ReflTransGen (fun a b => ∃ s ∈ steps N, 0 < stepProb N N.inverseRates a s ∧ b = after a s) a c := by
    intro c h
    induction h with
    | refl => exact ⟨ha, .refl⟩
    | @tail b₁ b₂ _ hstep ih =>
      obtain ⟨hr, ih⟩ := ih
      obtain ⟨k, y, v, h1, h2, h3, rfl⟩ := hstep
      have hs : (⟨k, y⟩ : Step) ∈ steps N := mem_steps.2 ⟨v, h1, h2⟩
      refine ⟨hU.closed _ hr _ hs, ih.tail ⟨⟨k, y⟩, hs, ?_, rfl⟩⟩
      unfold stepProb
      refine div_pos ?_ (hU.pos _ hr)
      have hv : v ∈ N.vars := List.mem_of_getElem? h1
      have hg : N.vars.getD k "" = v := by simp [List.getD_eq_getElem?_getD, h1]
      rw [hg]
      unfold Ctbn.inverseRates
      have h4 := outRate_pos hD hOK hr hv
      have h5 : (0 : ℝ) < N.exitRate b₁ v := by exact_mod_cast hpos b₁ hr v hv
      positivity
  exact (key b (hirr a b ha hb)).2

variable {U : Type} [MeasurableSpace U] {P : Measure U} [IsProbabilityMeasure P] (C : Categorical U P)

/-- The rows `CTBN_Sample(max_tr = n)` returns, as a random variable (none if it fails). -/
def sampledRows (net : SampleNet) {m : Nat} (C : Categorical U P) (n : Nat) (ω : ℕ → (Fin m → ℝ) × U) : RawTraj :=
  match net.sampleR n (drawsAt C ω) with | .ok rows => rows | .error _ => []

theorem sampled_total_deviation (hc : N.Conservative) (hirr : N.Irreducible) {π : List Nat → ℝ} (hπ : Stationary N N.inverseRates π)
    (b : List Nat → Step → ℝ) (w : List Nat → ℝ) {c : ℝ}
    (hval : ∑ a ∈ N.joint, π a * (∑ s ∈ steps N, N.inverseRates a (N.vars.getD s.1 "") s.2 * b a s + w a) = c * pace N N.inverseRates π) :
    ∃ B, 0 ≤ B ∧ ∀ (n : Nat) {δ : ℝ}, 0 < δ → drawLaw N.vars.length P {ω |
      δ ≤ |listTotal (linStep b w) (N.vars.map (fun _ => 0)) 0 (sampledMoves net C n ω) - n * c|} ≤ ENNReal.ofReal (B * n / δ ^ 2) := by
  have hpos := leaves_of_conservative hD hOK hc
  have hU := usable_inverse hD hOK hpos
  have hr : N.InRange (N.vars.map (fun _ => 0)) := zeros_inRange hOK
  obtain ⟨A, B, hB, hT, hbound⟩ := lln_bound hOK hU (connected_inverse hD hOK hc hirr) hπ b w
  rw [hval, mul_div_assoc, div_self (pace_pos hOK hU hπ).ne', mul_one] at hbound
  refine ⟨B, hB, fun n δ hδ => ?_⟩
  set zeros := N.vars.map (fun _ => 0) with hz
  have hm : ∀ L : List MoveEvent, L.length = n → Proper N L → MeasurableSet {ω | MovesAre (net.movesR n (drawsAt (m := N.vars.length) C ω) net.initClock) L} := by
    intro L hl hL; subst hl; exact measurable_moves hD hOK C hL
  have hl : ∀ L : List MoveEvent, L.length = n → Proper N L → drawLaw N.vars.length P {ω | MovesAre (net.movesR n (drawsAt C ω) net.initClock) L}
      = ENNReal.ofReal (jumpLaw N N.inverseRates L zeros) := by
    intro L hl hL; subst hl; exact sample_moves_law C hD hOK hpos hL
  set D := fun ω => listTotal (linStep b w) zeros 0 (sampledMoves (m := N.vars.length) net C n ω) - n * c with hD'
  have hstat : ∀ σ ∈ paths N n, ∀ ω ∈ onPath (fun ω => net.movesR n (drawsAt (m := N.vars.length) C ω) net.initClock) σ,
      D ω ^ 2 = (total (linStep b w) σ zeros 0 (holds n (movesOf (net.movesR n (drawsAt C ω) net.initClock))) - n * c) ^ 2 := by
    intro σ _ ω hω
    simp only [onPath, Set.mem_ofPred_eq, movesAre_events] at hω
    obtain ⟨ms, a1, a2, a3, -⟩ := hω
    have e : sampledMoves net C n ω = ms := by unfold sampledMoves; rw [a1]; rfl
    simp only [hD', e]
    rw [listTotal_on_path _ σ zeros 0 ms a2 a3, a1]
    rfl
  have hcen : ∀ σ (h : Fin n → ℝ), total (linStep b w) σ zeros 0 h - n * c = total (fun vals t s a => linStep b w vals t s a + (-c)) σ zeros 0 h := by
    intro σ h
    rw [total_add (linStep b w) (fun _ _ _ _ => -c), total_const]
    ring
  have hT' : Tame N (fun vals t s a => linStep b w vals t s a + (-c)) (A + |c|) := by
    refine hT.add ⟨abs_nonneg c, fun _ _ => measurable_const, fun vals hr s hs t a => ?_⟩
    rw [abs_neg]
    exact le_mul_of_one_le_right (abs_nonneg c) (by linarith [abs_nonneg a])
  obtain ⟨iD, eD⟩ := expectation (μ := drawLaw N.vars.length P) hU hr hm hl (G := fun ω => D ω ^ 2) (F := fun σ h => (total (linStep b w) σ zeros 0 h - n * c) ^ 2)
    hstat (fun σ hσ => by
      simp only [hcen]
      exact integrable_total_sq hU hT' hσ hr 0)
  have hle : ∫ ω, D ω ^ 2 ∂drawLaw N.vars.length P ≤ B * n := by
    rw [eD]
    exact hbound n hr 0
  have hmark := mul_meas_ge_le_integral_of_nonneg (μ := drawLaw N.vars.length P) (f := fun ω => D ω ^ 2) (.of_forall (fun ω => sq_nonneg _)) iD (δ ^ 2)
  have hset : {ω | δ ≤ |D ω|} ⊆ {ω | δ ^ 2 ≤ D ω ^ 2} := by
    intro ω h
    simp only [Set.mem_ofPred_eq] at h ⊢
    rw [← sq_abs (D ω)]
    exact pow_le_pow_left₀ hδ.le h 2
  refine (measure_mono hset).trans ?_
  rw [← ofReal_measureReal]
  refine ENNReal.ofReal_le_ofReal ?_
  rw [le_div_iff₀ (by positivity)]
  linarith

omit hD hOK [IsProbabilityMeasure P] in
theorem sampledRows_eq (hv : net.vnames = N.vars) (n : Nat) (ω : ℕ → (Fin N.vars.length → ℝ) × U) :
    sampledRows net C n ω = SampleNet.terminate (SampleNet.rowsOfMoves 0 (N.vars.map (fun _ => 0)) (sampledMoves net C n ω)) ∨
    (sampledRows net C n ω = [] ∧ sampledMoves net C n ω = []) := by
  unfold sampledRows sampledMoves SampleNet.sampleR
  cases h : net.movesR n (drawsAt C ω) net.initClock with
  | error e => exact .inr ⟨rfl, rfl⟩
  | ok ms => left; rw [← hv]; rfl

omit [IsProbabilityMeasure P] in
theorem sampledRows_sums {v : Label} (hv : v ∈ N.vars) {L : List Label} (hL : ∀ p ∈ L, p ∈ N.vars) {x y : Nat} (hxy : y ≠ x) (u : List Nat) (n : Nat)
    (ω : ℕ → (Fin N.vars.length → ℝ) × U) :
    (rawResidence N.vars [sampledRows net C n ω] v L x u : ℝ)
      = listTotal (linStep (fun _ _ => 0) (caseInd N v L x u)) (N.vars.map (fun _ => 0)) 0 (sampledMoves net C n ω) ∧
    (rawTransitions N.vars [sampledRows net C n ω] v L x y u : ℝ)
      ≤ listTotal (linStep (caseStep N v L x y u) (fun _ => 0)) (N.vars.map (fun _ => 0)) 0 (sampledMoves net C n ω) ∧
    listTotal (linStep (caseStep N v L x y u) (fun _ => 0)) (N.vars.map (fun _ => 0)) 0 (sampledMoves net C n ω)
      ≤ rawTransitions N.vars [sampledRows net C n ω] v L x y u + 1 := by
  rcases sampledRows_eq C hD.vnames n ω with h | ⟨h, h'⟩
  · rw [h]
    exact rows_sums hOK hv hL hxy u _ (by simp)
  · rw [h, h']
    simp [rawTransitions, rawResidence, consecutive, listTotal]

omit hD in
theorem sum_caseStep (a : List Nat) {v : Label} (hv : v ∈ N.vars) (L : List Label) (x : Nat) {y : Nat} (hy : y < N.card v) (u : List Nat) (rate : Rates) :
    ∑ s ∈ steps N, rate a (N.vars.getD s.1 "") s.2 * caseStep N v L x y u a s = if Circumstances N v L x u a then rate a v y else 0 := by
  obtain ⟨k, hk⟩ := List.mem_iff_getElem?.1 hv
  unfold caseStep
  by_cases hcase : Circumstances N v L x u a
  · rw [if_pos hcase, Finset.sum_eq_single (⟨k, y⟩ : Step)]
    · rw [if_pos ⟨hcase, hk, rfl⟩, mul_one]
      have hg : N.vars.getD k "" = v := by simp [List.getD_eq_getElem?_getD, hk]
      rw [hg]
    · rintro ⟨j, z⟩ _ hne
      rw [if_neg, mul_zero]
      rintro ⟨-, h2, h3⟩
      dsimp only at h2 h3
      apply hne
      have : j = k := (List.getElem?_inj (List.getElem?_eq_some_iff.1 h2).1 hOK.nodup).1 (h2.trans hk.symm)
      subst this; subst h3; rfl
    · intro h
      exact absurd (mem_steps.2 ⟨v, hk, hy⟩) h
  · rw [if_neg hcase]
    refine Finset.sum_eq_zero (fun s _ => ?_)
    rw [if_neg (fun h => hcase h.1), mul_zero]

omit hD hOK in
/-- From the deviation of a sum to that of a mean of something that differs from it by at most 1. -/
theorem deviation_mean {Ω : Type} [MeasurableSpace Ω] {μ : Measure Ω} [IsProbabilityMeasure μ] {X Y : Ω → ℝ} (hXY : ∀ ω, |X ω - Y ω| ≤ 1) {n : Nat} (hn : 1 ≤ n) {B c : ℝ} (hB : 0 ≤ B)
    (h : ∀ {δ : ℝ}, 0 < δ → μ {ω | δ ≤ |Y ω - n * c|} ≤ ENNReal.ofReal (B * n / δ ^ 2)) {δ : ℝ} (hδ : 0 < δ) :
    μ {ω | δ ≤ |X ω - n * c|} ≤ ENNReal.ofReal ((4 * B + 4) * n / δ ^ 2) := by
  have hn' : (1 : ℝ) ≤ n := by exact_mod_cast hn
  rcases le_or_gt 2 δ with h2 | h2
  · have hB' : (0 : ℝ) ≤ 4 * (n : ℝ) / δ ^ 2 := by positivity
    refine (measure_mono ?_).trans ((h (half_pos hδ)).trans (ENNReal.ofReal_le_ofReal ?_))
    · intro ω hω
      simp only [Set.mem_ofPred_eq] at hω ⊢
      have h1 := abs_sub_le (X ω) (Y ω) (n * c)
      have := hXY ω
      linarith
    · have : B * n / (δ / 2) ^ 2 = 4 * B * n / δ ^ 2 := by field_simp; ring
      rw [this, add_mul, add_div]
      linarith
  · refine prob_le_one.trans ?_
    rw [← ENNReal.ofReal_one]
    refine ENNReal.ofReal_le_ofReal ?_
    rw [le_div_iff₀ (by positivity)]
    nlinarith

omit hD hOK in
theorem rowsOfMoves_of_frames {ms : List Move} : ∀ {t : ℝ} {vals : List Nat} {rows : List (ℚ × List Nat)}, FramesMatch rows (movesFrames t vals ms) →
    rows = SampleNet.rowsOfMoves t vals ms := by
  induction ms with
  | nil =>
    intro t vals rows h
    rw [movesFrames] at h
    obtain _ | ⟨⟨h1, τ, h2, h3⟩, h4⟩ := h
    cases h4
    rename_i r
    dsimp only at h1 h2
    rw [SampleNet.rowsOfMoves, ← h2, round4R_cast, ← h3]
    obtain ⟨r1, r2⟩ := r
    dsimp only at h1
    rw [h1]
  | cons m ms ih =>
    intro t vals rows h
    rw [movesFrames] at h
    obtain _ | ⟨⟨h1, τ, h2, h3⟩, h4⟩ := h
    rename_i r rows
    dsimp only at h1 h2
    rw [SampleNet.rowsOfMoves, ih h4, ← h2, round4R_cast, ← h3]
    obtain ⟨r1, r2⟩ := r
    dsimp only at h1
    rw [h1]

/-- **C190** (the connection with the code's arithmetic).  On rational draws, `CTBN_Sample(max_tr = n)` with real clocks returns what it returns with
rational clocks. -/
theorem sampleR_agrees (n : Nat) (d : SampleDraws) : ∃ rows, Samples net (-1) n d rows ∧ net.sampleR n (realDraws d) = .ok rows := by
  obtain ⟨rows, h1, -, h2⟩ := sample_max_transitions hD hOK (-1) n d
  refine ⟨rows, h1, ?_⟩
  obtain ⟨ms, rows₀, h3, h4, h5⟩ := sample_rows_of_moves hD hOK h1
  have hrows := rowsOfMoves_of_frames h4
  have hl : ∀ (ms : List Move) (t : ℝ) (vals : List Nat), (SampleNet.rowsOfMoves t vals ms).length = ms.length + 1 := by
    intro ms
    induction ms with
    | nil => intro t vals; rfl
    | cons m ms ih => intro t vals; rw [SampleNet.rowsOfMoves, List.length_cons, ih, List.length_cons]
  have hn : ms.length = n := by
    have := h2 rfl
    rw [h5, terminate_length, hrows, hl] at this
    omega
  unfold SampleNet.sampleR
  rw [← hn, h3, h5, hrows, hD.vnames]
  rfl

/-- **C190** (the stationary distribution).  If every joint state leads to every other, the process the sampler follows has exactly one stationary
distribution, and it is positive everywhere. -/
theorem sample_stationary (hc : N.Conservative) (hirr : N.Irreducible) : ∃ π, Stationary N N.inverseRates π ∧ (∀ a, N.InRange a → 0 < π a) ∧
    ∀ π', Stationary N N.inverseRates π' → ∀ a, N.InRange a → π' a = π a := by
  have hU := usable_inverse hD hOK (leaves_of_conservative hD hOK hc)
  have hconn := connected_inverse hD hOK hc hirr
  obtain ⟨π, hπ⟩ := exists_stationary hOK hU hconn
  exact ⟨π, hπ, fun a ha => stationary_pos hOK hU hconn hπ ha, fun π' hπ' a ha => stationary_unique hOK hU hconn hπ' hπ ha⟩

theorem residence_deviation (hc : N.Conservative) (hirr : N.Irreducible) {π : List Nat → ℝ} (hπ : Stationary N N.inverseRates π)
    {v : Label} (hv : v ∈ N.vars) {L : List Label} (hL : ∀ p ∈ L, p ∈ N.vars) (x : Nat) (u : List Nat) :
    ∃ B, 0 ≤ B ∧ ∀ (n : Nat) {δ : ℝ}, 0 < δ → drawLaw N.vars.length P {ω |
      δ ≤ |(rawResidence N.vars [sampledRows net C n ω] v L x u : ℝ) - n * (share N π v L x u / pace N N.inverseRates π)|} ≤ ENNReal.ofReal (B * n / δ ^ 2) := by
  have hU := usable_inverse hD hOK (leaves_of_conservative hD hOK hc)
  have hp := (pace_pos hOK hU hπ).ne'
  obtain ⟨B, hB, h⟩ := sampled_total_deviation hD hOK C hc hirr hπ (fun _ _ => 0) (caseInd N v L x u) (c := share N π v L x u / pace N N.inverseRates π) (by
    rw [div_mul_cancel₀ _ hp]
    unfold share caseInd
    refine Finset.sum_congr rfl (fun a _ => ?_)
    split_ifs <;> simp)
  refine ⟨B, hB, fun n δ hδ => ?_⟩
  simp only [(sampledRows_sums hD hOK C hv hL (x := x) (y := x + 1) (by omega) u n _).1]
  exact h n hδ

theorem transitions_deviation (hc : N.Conservative) (hirr : N.Irreducible) {π : List Nat → ℝ} (hπ : Stationary N N.inverseRates π)
    {v : Label} (hv : v ∈ N.vars) {L : List Label} (hL : ∀ p ∈ L, p ∈ N.vars) {x y : Nat} (hxy : y ≠ x) (hy : y < N.card v) (u : List Nat) :
    ∃ B, 0 ≤ B ∧ ∀ (n : Nat), 1 ≤ n → ∀ {δ : ℝ}, 0 < δ → drawLaw N.vars.length P {ω |
      δ ≤ |(rawTransitions N.vars [sampledRows net C n ω] v L x y u : ℝ) - n * (flux N N.inverseRates π v L x y u / pace N N.inverseRates π)|}
        ≤ ENNReal.ofReal (B * n / δ ^ 2) := by
  have hU := usable_inverse hD hOK (leaves_of_conservative hD hOK hc)
  have hp := (pace_pos hOK hU hπ).ne'
  obtain ⟨B, hB, h⟩ := sampled_total_deviation hD hOK C hc hirr hπ (caseStep N v L x y u) (fun _ => 0) (c := flux N N.inverseRates π v L x y u / pace N N.inverseRates π) (by
    rw [div_mul_cancel₀ _ hp]
    unfold flux
    refine Finset.sum_congr rfl (fun a _ => ?_)
    rw [sum_caseStep hOK a hv L x hy u, add_zero]
    split_ifs <;> simp)
  refine ⟨4 * B + 4, by positivity, fun n hn δ hδ => ?_⟩
  have hdraw : IsProbabilityMeasure (drawLaw N.vars.length P) := by unfold drawLaw; infer_instance
  refine deviation_mean (fun ω => ?_) hn hB (fun hδ => h n hδ) hδ
  obtain ⟨-, h1, h2⟩ := sampledRows_sums hD hOK C hv hL hxy u n ω
  rw [abs_le]
  constructor <;> linarith

omit hD hOK in
theorem mean_of_deviation {Ω : Type} [MeasurableSpace Ω] {μ : Measure Ω} {X : Ω → ℝ} {B c : ℝ} {n : Nat} (hn : 1 ≤ n)
    (h : ∀ {δ : ℝ}, 0 < δ → μ {ω | δ ≤ |X ω - n * c|} ≤ ENNReal.ofReal (B * n / δ ^ 2)) {ε : ℝ} (hε : 0 < ε) :
    μ {ω | ε ≤ |X ω / n - c|} ≤ ENNReal.ofReal (B / (ε ^ 2 * n)) := by
  have hn' : (0 : ℝ) < n := by exact_mod_cast hn
  have e : {ω | ε ≤ |X ω / n - c|} = {ω | ε * n ≤ |X ω - n * c|} := by
    ext ω
    simp only [Set.mem_ofPred_eq]
    rw [show X ω / n - c = (X ω - n * c) / n by field_simp, abs_div, abs_of_pos hn', le_div_iff₀ hn']
  rw [e]
  refine (h (by positivity)).trans (le_of_eq ?_)
  congr 1
  field_simp

/-- **C190** (times).  The mean time per transition that a sampled trajectory shows in given circumstances (a variable in a state, some others in given
states) converges in probability, with an explicit rate, to the stationary probability of these circumstances over the stationary pace. -/
theorem sample_residence_mean (hc : N.Conservative) (hirr : N.Irreducible) {π : List Nat → ℝ} (hπ : Stationary N N.inverseRates π)
    {v : Label} (hv : v ∈ N.vars) {L : List Label} (hL : ∀ p ∈ L, p ∈ N.vars) (x : Nat) (u : List Nat) :
    ∃ B : ℝ, ∀ (n : Nat), 1 ≤ n → ∀ {ε : ℝ}, 0 < ε → drawLaw N.vars.length P {ω |
      ε ≤ |(rawResidence N.vars [sampledRows net C n ω] v L x u : ℝ) / n - share N π v L x u / pace N N.inverseRates π|} ≤ ENNReal.ofReal (B / (ε ^ 2 * n)) := by
  obtain ⟨B, -, h⟩ := residence_deviation hD hOK C hc hirr hπ hv hL x u
  exact ⟨B, fun n hn ε hε => mean_of_deviation hn (fun hδ => h n hδ) hε⟩

/-- **C190** (transitions).  The share of a sampled trajectory's transitions that are those of a variable between two given states, in given states of
some others, converges in probability, with an explicit rate, to its stationary value. -/
theorem sample_transitions_mean (hc : N.Conservative) (hirr : N.Irreducible) {π : List Nat → ℝ} (hπ : Stationary N N.inverseRates π)
    {v : Label} (hv : v ∈ N.vars) {L : List Label} (hL : ∀ p ∈ L, p ∈ N.vars) {x y : Nat} (hxy : y ≠ x) (hy : y < N.card v) (u : List Nat) :
    ∃ B : ℝ, ∀ (n : Nat), 1 ≤ n → ∀ {ε : ℝ}, 0 < ε → drawLaw N.vars.length P {ω |
      ε ≤ |(rawTransitions N.vars [sampledRows net C n ω] v L x y u : ℝ) / n - flux N N.inverseRates π v L x y u / pace N N.inverseRates π|}
        ≤ ENNReal.ofReal (B / (ε ^ 2 * n)) := by
  obtain ⟨B, -, h⟩ := transitions_deviation hD hOK C hc hirr hπ hv hL hxy hy u
  exact ⟨B, fun n hn ε hε => mean_of_deviation hn (fun hδ => h n hn hδ) hε⟩

omit hD hOK in
theorem tendsto_of_bound {f : ℕ → ℝ≥0∞} {B ε : ℝ} (h : ∀ n, 1 ≤ n → f n ≤ ENNReal.ofReal (B / (ε ^ 2 * n))) : Tendsto f atTop (𝓝 0) := by
  have h1 : Tendsto (fun n : ℕ => ENNReal.ofReal (B / (ε ^ 2 * n))) atTop (𝓝 0) := by
    rw [← ENNReal.ofReal_zero]
    refine ENNReal.tendsto_ofReal ?_
    have : Tendsto (fun n : ℕ => B / ε ^ 2 / (n : ℝ)) atTop (𝓝 0) := tendsto_const_div_atTop_nhds_zero_nat _
    simpa only [div_div] using this
  exact tendsto_of_tendsto_of_tendsto_of_le_of_le' tendsto_const_nhds h1 (.of_forall (fun _ => zero_le)) (eventually_atTop.2 ⟨1, h⟩)

/-- **C191.**  What the library estimates for the intensity of a variable's move, given the states of any list of other variables - those of the true
parents or of any others -, converges in probability to the stationary mean rate of that move in these circumstances. -/
theorem sample_estimate_limit (hc : N.Conservative) (hirr : N.Irreducible) {π : List Nat → ℝ} (hπ : Stationary N N.inverseRates π)
    {v : Label} (hv : v ∈ N.vars) {L : List Label} (hL : ∀ p ∈ L, p ∈ N.vars) {x y : Nat} (hxy : y ≠ x) (hy : y < N.card v) (u : List Nat)
    (hshare : 0 < share N π v L x u) {ε : ℝ} (hε : 0 < ε) :
    Tendsto (fun n => drawLaw N.vars.length P {ω | ε ≤ |((rawTransitions N.vars [sampledRows net C n ω] v L x y u : ℝ) + 1)
      / ((rawResidence N.vars [sampledRows net C n ω] v L x u : ℝ) + 1) - flux N N.inverseRates π v L x y u / share N π v L x u|}) atTop (𝓝 0) := by
  have hU := usable_inverse hD hOK (leaves_of_conservative hD hOK hc)
  have hp := pace_pos hOK hU hπ
  obtain ⟨B₁, h1⟩ := sample_residence_mean hD hOK C hc hirr hπ hv hL x u
  obtain ⟨B₂, h2⟩ := sample_transitions_mean hD hOK C hc hirr hπ hv hL hxy hy u
  set s := share N π v L x u / pace N N.inverseRates π with hs
  set f := flux N N.inverseRates π v L x y u / pace N N.inverseRates π with hf
  have hs0 : 0 < s := div_pos hshare hp
  have hr : flux N N.inverseRates π v L x y u / share N π v L x u = f / s := by
    rw [hs, hf]; field_simp
  rw [hr]
  -- choose η
  set r := f / s with hr'
  obtain ⟨η, hη0, hη1, hη2⟩ : ∃ η > 0, η ≤ s / 2 ∧ η * (1 + |r|) ≤ ε * s / 8 := by
    refine ⟨min (s / 2) (ε * s / 8 / (1 + |r|)), lt_min (by positivity) (by positivity), min_le_left _ _, ?_⟩
    have := min_le_right (s / 2) (ε * s / 8 / (1 + |r|))
    rwa [le_div_iff₀ (by positivity)] at this
  obtain ⟨n₀, hn₀⟩ := exists_nat_gt (8 * (1 + |r|) / (ε * s))
  have hsum : Tendsto (fun n => drawLaw N.vars.length P {ω | η ≤ |(rawResidence N.vars [sampledRows net C n ω] v L x u : ℝ) / n - s|}
      + drawLaw N.vars.length P {ω | η ≤ |(rawTransitions N.vars [sampledRows net C n ω] v L x y u : ℝ) / n - f|}) atTop (𝓝 0) := by
    have := (tendsto_of_bound (fun n hn => h1 n hn hη0)).add (tendsto_of_bound (fun n hn => h2 n hn hη0))
    simpa using this
  refine tendsto_of_tendsto_of_tendsto_of_le_of_le' tendsto_const_nhds hsum (.of_forall (fun _ => zero_le)) (eventually_atTop.2 ⟨max n₀ 1, fun n hn => ?_⟩)
  refine (measure_mono ?_).trans (measure_union_le _ _)
  intro ω hω
  simp only [Set.mem_union, Set.mem_ofPred_eq] at hω ⊢
  by_contra hcon
  push Not at hcon
  obtain ⟨hT, hM⟩ := hcon
  have hn1 : (1 : ℝ) ≤ n := by exact_mod_cast (le_max_right n₀ 1).trans hn
  have hnn : 8 * (1 + |r|) / (ε * s) < n := hn₀.trans_le (by exact_mod_cast (le_max_left n₀ 1).trans hn)
  have hnpos : (0 : ℝ) < n := by linarith
  set T := (rawResidence N.vars [sampledRows net C n ω] v L x u : ℝ)
  set M := (rawTransitions N.vars [sampledRows net C n ω] v L x y u : ℝ)
  rw [div_lt_iff₀ (by positivity)] at hnn
  have hT' : |T - n * s| < η * n := by
    rwa [show T / n - s = (T - n * s) / n by field_simp, abs_div, abs_of_pos hnpos, div_lt_iff₀ hnpos] at hT
  have hM' : |M - n * f| < η * n := by
    rwa [show M / n - f = (M - n * f) / n by field_simp, abs_div, abs_of_pos hnpos, div_lt_iff₀ hnpos] at hM
  have hTpos : s / 2 * n ≤ T := by
    have := (abs_lt.1 hT').1
    nlinarith
  have hT1 : 0 < T + 1 := by nlinarith
  have hfr : f = r * s := by rw [hr', div_mul_cancel₀ _ hs0.ne']
  have e : (M + 1) / (T + 1) - r = ((M - n * f) - r * (T - n * s) + (1 - r)) / (T + 1) := by
    rw [eq_div_iff hT1.ne', sub_mul, div_mul_cancel₀ _ hT1.ne', hfr]
    ring
  rw [e, abs_div, abs_of_pos hT1, le_div_iff₀ hT1] at hω
  have hb : |(M - n * f) - r * (T - n * s) + (1 - r)| ≤ η * n + |r| * (η * n) + (1 + |r|) := by
    refine (abs_add_le _ _).trans (add_le_add ((abs_sub _ _).trans (add_le_add hM'.le ?_)) ?_)
    · rw [abs_mul]; exact mul_le_mul_of_nonneg_left hT'.le (abs_nonneg _)
    · refine (abs_sub _ _).trans ?_; rw [abs_one]
  have h3 : ε * (s / 2 * n) ≤ ε * (T + 1) := mul_le_mul_of_nonneg_left (by linarith) hε.le
  have h4 : η * n + |r| * (η * n) ≤ ε * s / 8 * n := by nlinarith
  nlinarith [mul_pos (mul_pos hε hs0) hnpos]

/-- The states that `u`, listed for the variables `L`, gives to the parents of `v`. -/
def _root_.PyCTBN.Spec.Ctbn.parentPart (N : Ctbn) (v : Label) (L : List Label) (u : List Nat) : List Nat := (N.parents v).map (fun p => u.getD (L.idxOf p) 0)

omit hD hOK in
theorem parentStates_of {v : Label} {L : List Label} (hP : ∀ p ∈ N.parents v, p ∈ L) {x : Nat} {u vals : List Nat} (h : Circumstances N v L x u vals) :
    InCase N v x (N.parentPart v L u) vals := by
  refine ⟨h.1, ?_⟩
  unfold Ctbn.parentStates Ctbn.parentPart
  refine List.map_congr_left (fun p hp => ?_)
  have hi : L.idxOf p < L.length := List.idxOf_lt_length_iff.2 (hP p hp)
  rw [← h.2, List.getD_eq_getElem?_getD, List.getElem?_map, List.getElem?_eq_getElem hi]
  simp

/-- Given the states of all parents and possibly of others, the mean rate of a move is that of the process. -/
theorem flux_of_parents (hc : N.Conservative) {π : List Nat → ℝ} {v : Label} (hv : v ∈ N.vars) {L : List Label} (hP : ∀ p ∈ N.parents v, p ∈ L)
    {x y : Nat} (hxy : y ≠ x) (u : List Nat) : flux N N.inverseRates π v L x y u = N.inverseAt v (N.parentPart v L u) x y * share N π v L x u := by
  unfold flux share
  rw [Finset.mul_sum]
  refine Finset.sum_congr rfl (fun a ha => ?_)
  split_ifs with h
  · rw [inverse_at hD hOK hc hv hxy ((mem_joint hOK).1 ha) (parentStates_of hP h), mul_comm]
  · simp

omit hD hOK in
theorem listTotal_sub (b : List Nat → Step → ℝ) (w : List Nat → ℝ) (r : ℝ) (ms : List Move) : ∀ vals t,
    listTotal (linStep b (fun a => -r * w a)) vals t ms = listTotal (linStep b (fun _ => 0)) vals t ms - r * listTotal (linStep (fun _ _ => 0) w) vals t ms := by
  induction ms with
  | nil => intros; simp [listTotal]
  | cons m ms ih => intro vals t; simp only [listTotal, ih, linStep]; ring

/-- **C192** (fluctuations).  Given the states of all parents, the number of observed moves and the rate of the process times the observed time differ
only by something of the order of the square root of the number of transitions. -/
theorem sample_rate_deviation (hc : N.Conservative) (hirr : N.Irreducible) {v : Label} (hv : v ∈ N.vars) {L : List Label} (hL : ∀ p ∈ L, p ∈ N.vars)
    (hP : ∀ p ∈ N.parents v, p ∈ L) {x y : Nat} (hxy : y ≠ x) (hy : y < N.card v) (u : List Nat) :
    ∃ B, 0 ≤ B ∧ ∀ (n : Nat), 1 ≤ n → ∀ {δ : ℝ}, 0 < δ → drawLaw N.vars.length P {ω |
      δ ≤ |(rawTransitions N.vars [sampledRows net C n ω] v L x y u : ℝ)
        - N.inverseAt v (N.parentPart v L u) x y * (rawResidence N.vars [sampledRows net C n ω] v L x u : ℝ)|} ≤ ENNReal.ofReal (B * n / δ ^ 2) := by
  obtain ⟨π, hπ, -, -⟩ := sample_stationary hD hOK hc hirr
  set r := N.inverseAt v (N.parentPart v L u) x y with hr
  obtain ⟨B, hB, h⟩ := sampled_total_deviation hD hOK C hc hirr hπ (caseStep N v L x y u) (fun a => -r * caseInd N v L x u a) (c := 0) (by
    rw [zero_mul]
    refine Finset.sum_eq_zero (fun a ha => ?_)
    rw [sum_caseStep hOK a hv L x hy u]
    unfold caseInd
    split_ifs with hcase
    · rw [inverse_at hD hOK hc hv hxy ((mem_joint hOK).1 ha) (parentStates_of hP hcase), ← hr]; ring
    · simp)
  refine ⟨4 * B + 4, by positivity, fun n hn δ hδ => ?_⟩
  have hdraw : IsProbabilityMeasure (drawLaw N.vars.length P) := by unfold drawLaw; infer_instance
  have := deviation_mean (μ := drawLaw N.vars.length P) (c := 0) (X := fun ω => (rawTransitions N.vars [sampledRows net C n ω] v L x y u : ℝ) - r * (rawResidence N.vars [sampledRows net C n ω] v L x u : ℝ))
    (Y := fun ω => listTotal (linStep (caseStep N v L x y u) (fun a => -r * caseInd N v L x u a)) (N.vars.map (fun _ => 0)) 0 (sampledMoves net C n ω))
    (fun ω => ?_) hn hB (fun hδ => h n hδ) hδ
  · simpa using this
  · obtain ⟨h0, h1, h2⟩ := sampledRows_sums hD hOK C hv hL hxy u n ω
    rw [listTotal_sub, h0, abs_le]
    constructor <;> linarith

/-- **C192.**  Given the states of all parents - and possibly of others, which do not matter -, the library's estimate converges in probability to the
intensity divided by the square of the exit intensity. -/
theorem sample_estimate_parents (hc : N.Conservative) (hirr : N.Irreducible) {v : Label} (hv : v ∈ N.vars) {L : List Label} (hL : ∀ p ∈ L, p ∈ N.vars)
    (hP : ∀ p ∈ N.parents v, p ∈ L) {x y : Nat} (hxy : y ≠ x) (hy : y < N.card v) {vals : List Nat} (hr : N.InRange vals) (hx : N.state vals v = x)
    {ε : ℝ} (hε : 0 < ε) :
    Tendsto (fun n => drawLaw N.vars.length P {ω | ε ≤ |((rawTransitions N.vars [sampledRows net C n ω] v L x y (L.map (N.state vals)) : ℝ) + 1)
      / ((rawResidence N.vars [sampledRows net C n ω] v L x (L.map (N.state vals)) : ℝ) + 1) - N.inverseAt v (N.parentStates vals v) x y|}) atTop (𝓝 0) := by
  obtain ⟨π, hπ, hpos, -⟩ := sample_stationary hD hOK hc hirr
  have hcase : Circumstances N v L x (L.map (N.state vals)) vals := ⟨hx, rfl⟩
  have hshare : 0 < share N π v L x (L.map (N.state vals)) := by
    unfold share
    refine Finset.sum_pos' (fun a ha => ?_) ⟨vals, (mem_joint hOK).2 hr, ?_⟩
    · split_ifs
      · exact hπ.nonneg a ha
      · exact le_rfl
    · rw [if_pos hcase]; exact hpos vals hr
  have h := sample_estimate_limit hD hOK C hc hirr hπ hv hL hxy hy (L.map (N.state vals)) hshare hε
  rw [flux_of_parents hD hOK hc hv hP hxy, mul_div_cancel_right₀ _ hshare.ne', ← (parentStates_of hP hcase).2] at h
  exact h

end

end

end PyCTBN

namespace PyCTBN
open Spec JumpPaths

theorem state_at {N : Ctbn} (hOK : N.OK) {vals : List Nat} (hl : vals.length = N.vars.length) {k : Nat} (hk : k < N.vars.length) :
    N.state vals N.vars[k] = vals[k] := by
  unfold Ctbn.state
  rw [hOK.nodup.idxOf_getElem k hk, List.getElem?_eq_getElem (by omega)]
  rfl

/-- When every variable can always move to each of its other states, every joint state leads to every other. -/
theorem irreducible_of_allPositive {N : Ctbn} (hOK : N.OK) (h : N.AllPositive) : N.Irreducible := by
  intro a b ha hb
  have key : ∀ k ≤ N.vars.length, N.InRange (b.take k ++ a.drop k) ∧ Relation.ReflTransGen N.Moves a (b.take k ++ a.drop k) := by
    intro k
    induction k with
    | zero => intro _; simpa using ⟨ha, .refl⟩
    | succ k ih =>
      intro hk
      obtain ⟨h1, h2⟩ := ih (by omega)
      have hka : k < a.length := by rw [ha.1]; omega
      have hkb : k < b.length := by rw [hb.1]; omega
      have e : b.take (k + 1) ++ a.drop (k + 1) = (b.take k ++ a.drop k).set k b[k] := by
        rw [List.set_append_right _ _ (by simp), List.length_take, Nat.min_eq_left hkb.le, Nat.sub_self, List.drop_eq_getElem_cons hka, List.set_cons_zero,
          List.take_succ_eq_append_getElem hkb, List.append_assoc]
        rfl
      have hv : N.vars[k]? = some N.vars[k] := List.getElem?_eq_getElem (by omega)
      have hs : b[k] < N.card N.vars[k] := by
        rw [← state_at hOK hb.1 (by omega)]
        exact hb.2 _ (List.getElem_mem _)
      rw [e]
      refine ⟨inRange_set hOK h1 hv hs, ?_⟩
      by_cases heq : b[k] = N.state (b.take k ++ a.drop k) N.vars[k]
      · have : (b.take k ++ a.drop k).set k b[k] = b.take k ++ a.drop k := by
          rw [heq, state_at hOK h1.1 (by omega)]
          exact List.set_getElem_self _
        rw [this]; exact h2
      · refine h2.tail ⟨k, b[k], N.vars[k], hv, hs, ?_, rfl⟩
        unfold Ctbn.rates
        rw [if_neg heq]
        exact_mod_cast h _ h1 _ (List.getElem_mem _) _ hs heq
  have := (key N.vars.length le_rfl).2
  rwa [← ha.1, List.drop_length, List.append_nil, ha.1, ← hb.1, List.take_length] at this

/-! ## Non-vacuity -/

namespace Demo
open MeasureTheory Filter Topology

/-- `X → Y`, two states each; `Y` leaves its state 0 with intensity 1 or 1/2. -/
def pairCim : Nat → List (List ℚ)
  | 0 => [[-1, 1], [1, -1]]
  | _ => [[-1/2, 1/2], [1, -1]]

def pairCtbn : Ctbn where
  vars := ["X", "Y"]
  card := fun _ => 2
  parents := fun v => if v = "Y" then ["X"] else []
  cim := fun _ u => pairCim (u.headD 0)

def pX : SetOfCims := ⟨"X", [], 2, [[]], false, [mkCim (pairCim 0)]⟩
def pY : SetOfCims := ⟨"Y", [2], 2, [[0], [1]], false, [mkCim (pairCim 0), mkCim (pairCim 1)]⟩

def pairNet : SampleNet := SampleNet.new ["X", "Y"] [("X", "Y")] [("X", pX), ("Y", pY)]

theorem pX_stores : Stores [] (fun u => pairCim (u.headD 0)) pX where
  len := rfl
  nodup := by decide
  mem := by
    intro u
    simp only [pX, List.mem_singleton, InRangeAssign]
    constructor
    · rintro rfl; exact .nil
    · intro h; cases h; rfl
  beside := by
    intro k u m h1 h2
    have hk : k < 1 := by have := (List.getElem?_eq_some_iff.1 h2).1; simpa [pX] using this
    have : k = 0 := by omega
    subst this
    simp only [pX, List.getElem?_cons_zero, Option.some.injEq] at h1 h2
    rw [← h2, ← h1]; rfl
  single := by intro h; simp at h

theorem pY_stores : Stores [2] (fun u => pairCim (u.headD 0)) pY where
  len := rfl
  nodup := by decide
  mem := by
    intro u
    simp only [pY, InRangeAssign]
    constructor
    · intro h
      simp only [List.mem_cons, List.not_mem_nil, or_false] at h
      rcases h with rfl | rfl <;> exact .cons (by decide) .nil
    · intro h
      cases h with
      | cons h1 h2 =>
        cases h2
        rename_i x
        have : x = 0 ∨ x = 1 := by omega
        rcases this with rfl | rfl <;> simp
  beside := by
    intro k u m h1 h2
    have hk : k < 2 := by have := (List.getElem?_eq_some_iff.1 h2).1; simpa [pY] using this
    have : k = 0 ∨ k = 1 := by omega
    rcases this with rfl | rfl <;>
    · simp [pY] at h1 h2
      subst h1 h2; rfl
  single := by
    intro _ k x h
    have hk : k < 2 := by have := (List.getElem?_eq_some_iff.1 h).1; simpa [pY] using this
    have : k = 0 ∨ k = 1 := by omega
    rcases this with rfl | rfl <;> simpa [pY] using h

theorem pair_describes : Describes pairNet pairCtbn where
  vnames := rfl
  parents := by decide
  cims := by
    intro v hv
    simp only [pairCtbn, List.mem_cons, List.not_mem_nil, or_false] at hv
    rcases hv with rfl | rfl
    · exact ⟨pX, rfl, pX_stores⟩
    · exact ⟨pY, rfl, pY_stores⟩

theorem pair_ok : pairCtbn.OK where
  nonempty := by simp [pairCtbn]
  nodup := by decide
  closed := by decide
  pos := by decide
  cims := by
    intro v hv u hu
    have : ∀ k, Ctbn.MatrixOK 2 (pairCim k) := by
      intro k
      match k with
      | 0 => exact matrixOK_of (by decide +kernel)
      | k + 1 => exact (matrixOK_of (by decide +kernel) : Ctbn.MatrixOK 2 [[-1/2, 1/2], [1, -1]])
    exact this _

theorem pair_inRange {vals : List Nat} (hr : pairCtbn.InRange vals) : ∃ x < 2, ∃ y < 2, vals = [x, y] := by
  obtain ⟨h1, h2⟩ := hr
  obtain ⟨x, y, rfl⟩ : ∃ x y, vals = [x, y] := by
    match vals, h1 with
    | [x, y], _ => exact ⟨x, y, rfl⟩
  exact ⟨x, h2 "X" (by decide), y, h2 "Y" (by decide), rfl⟩

theorem pair_conservative : pairCtbn.Conservative := by
  intro vals hr v hv
  obtain ⟨x, hx, y, hy, rfl⟩ := pair_inRange hr
  rw [← weights_sum]
  have hall : ∀ x < 2, ∀ y < 2, ∀ v ∈ ["X", "Y"], pairCtbn.exitRate [x, y] v = (pairCtbn.weights [x, y] v).sum := by decide +kernel
  rw [hall x hx y hy v hv]

theorem pair_allPositive : pairCtbn.AllPositive := by
  intro vals hr v hv z hz hne
  obtain ⟨x, hx, y, hy, rfl⟩ := pair_inRange hr
  have hall : ∀ x < 2, ∀ y < 2, ∀ v ∈ ["X", "Y"], ∀ z < 2, z ≠ pairCtbn.state [x, y] v → 0 < pairCtbn.intensity [x, y] v z := by decide +kernel
  exact hall x hx y hy v hv z hz hne

theorem pair_irreducible : pairCtbn.Irreducible := irreducible_of_allPositive pair_ok pair_allPositive

theorem pair_rate {x y : Nat} (hx : x < 2) (hy : y < 2) {v : Label} (hv : v ∈ ["X", "Y"]) {z : Nat} (hz : z < 2) :
    pairCtbn.inverseRates [x, y] v z = if z = pairCtbn.state [x, y] v then 0 else ((1 / pairCtbn.exitRate [x, y] v : ℚ) : ℝ) := by
  have hr : pairCtbn.InRange [x, y] := ⟨rfl, fun w hw => by
    have : ∀ x < 2, ∀ y < 2, ∀ w ∈ ["X", "Y"], pairCtbn.state [x, y] w < 2 := by decide
    exact this x hx y hy w hw⟩
  unfold Ctbn.inverseRates Ctbn.rates
  split_ifs with h
  · simp
  · rw [← pair_conservative _ hr v hv]
    have hall : ∀ x < 2, ∀ y < 2, ∀ v ∈ ["X", "Y"], ∀ z < 2, z ≠ pairCtbn.state [x, y] v →
      pairCtbn.intensity [x, y] v z = pairCtbn.exitRate [x, y] v ∧ pairCtbn.exitRate [x, y] v ≠ 0 := by decide +kernel
    obtain ⟨h1, h2⟩ := hall x hx y hy v hv z hz h
    rw [h1, div_self (by exact_mod_cast h2), mul_one]
    push_cast; rfl

/-- The stationary distribution of the trajectories sampled from this network. -/
noncomputable def pairLaw : List Nat → ℝ
  | [0, 0] => 5 / 22
  | [0, 1] => 6 / 22
  | [1, 0] => 4 / 22
  | [1, 1] => 7 / 22
  | _ => 0

theorem pair_joint : pairCtbn.joint = {[0, 0], [0, 1], [1, 0], [1, 1]} := by decide

theorem pair_rateX {x y z : Nat} (hx : x < 2) (hy : y < 2) (hz : z < 2) : pairCtbn.inverseRates [x, y] "X" z = if z = x then 0 else 1 := by
  rw [pair_rate hx hy (by decide) hz]
  have hall : ∀ x < 2, ∀ y < 2, pairCtbn.state [x, y] "X" = x ∧ 1 / pairCtbn.exitRate [x, y] "X" = 1 := by decide +kernel
  obtain ⟨h1, h2⟩ := hall x hx y hy
  rw [h1, h2, Rat.cast_one]

theorem pair_rateY {x y z : Nat} (hx : x < 2) (hy : y < 2) (hz : z < 2) :
    pairCtbn.inverseRates [x, y] "Y" z = if z = y then 0 else if x = 1 ∧ y = 0 then 2 else 1 := by
  rw [pair_rate hx hy (by decide) hz]
  have hall : ∀ x < 2, ∀ y < 2, pairCtbn.state [x, y] "Y" = y ∧ 1 / pairCtbn.exitRate [x, y] "Y" = if x = 1 ∧ y = 0 then 2 else 1 := by decide +kernel
  obtain ⟨h1, h2⟩ := hall x hx y hy
  rw [h1, h2]
  split_ifs <;> simp

theorem pair_flow {x y : Nat} (hx : x < 2) (hy : y < 2) (b : List Nat) : flow pairCtbn pairCtbn.inverseRates [x, y] b
    = (if [1 - x, y] = b then 1 else 0) + (if [x, 1 - y] = b then (if x = 1 ∧ y = 0 then 2 else 1) else 0) := by
  unfold flow
  have e0 : pairCtbn.vars.getD 0 "" = "X" := rfl
  have e1 : pairCtbn.vars.getD 1 "" = "Y" := rfl
  have ec : ∀ v, pairCtbn.card v = 2 := fun _ => rfl
  have el : pairCtbn.vars.length = 2 := rfl
  simp only [el, Finset.sum_range_succ, Finset.sum_range_zero, zero_add, e0, e1, ec, pair_rateX hx hy (by norm_num : 0 < 2), pair_rateX hx hy (by norm_num : 1 < 2),
    pair_rateY hx hy (by norm_num : 0 < 2), pair_rateY hx hy (by norm_num : 1 < 2), List.set_cons_zero, List.set_cons_succ]
  have : x = 0 ∨ x = 1 := by omega
  have : y = 0 ∨ y = 1 := by omega
  rcases ‹x = 0 ∨ x = 1› with rfl | rfl <;> rcases ‹y = 0 ∨ y = 1› with rfl | rfl <;> simp

theorem pair_total {x y : Nat} (hx : x < 2) (hy : y < 2) : totalRate pairCtbn pairCtbn.inverseRates [x, y] = if x = 1 ∧ y = 0 then 3 else 2 := by
  have e : totalRate pairCtbn pairCtbn.inverseRates [x, y] = (pairCtbn.inverseRates [x, y] "X" 0 + (pairCtbn.inverseRates [x, y] "X" 1 + 0))
      + ((pairCtbn.inverseRates [x, y] "Y" 0 + (pairCtbn.inverseRates [x, y] "Y" 1 + 0)) + 0) := rfl
  rw [e]
  simp only [pair_rateX hx hy (by norm_num : 0 < 2), pair_rateX hx hy (by norm_num : 1 < 2),
    pair_rateY hx hy (by norm_num : 0 < 2), pair_rateY hx hy (by norm_num : 1 < 2)]
  have : x = 0 ∨ x = 1 := by omega
  have : y = 0 ∨ y = 1 := by omega
  rcases ‹x = 0 ∨ x = 1› with rfl | rfl <;> rcases ‹y = 0 ∨ y = 1› with rfl | rfl <;> norm_num

theorem pair_sum (f : List Nat → ℝ) : ∑ a ∈ pairCtbn.joint, f a = f [0, 0] + f [0, 1] + f [1, 0] + f [1, 1] := by
  rw [pair_joint, Finset.sum_insert (by decide), Finset.sum_insert (by decide), Finset.sum_insert (by decide), Finset.sum_singleton]
  ring

theorem pair_stationary : Stationary pairCtbn pairCtbn.inverseRates pairLaw where
  nonneg := by
    intro a ha
    rw [pair_joint] at ha
    simp only [Finset.mem_insert, Finset.mem_singleton] at ha
    rcases ha with rfl | rfl | rfl | rfl <;> norm_num [pairLaw]
  one := by rw [pair_sum]; norm_num [pairLaw]
  balance := by
    intro b hb
    rw [pair_sum, pair_flow (by norm_num) (by norm_num), pair_flow (by norm_num) (by norm_num), pair_flow (by norm_num) (by norm_num), pair_flow (by norm_num) (by norm_num)]
    rw [pair_joint] at hb
    simp only [Finset.mem_insert, Finset.mem_singleton] at hb
    rcases hb with rfl | rfl | rfl | rfl <;> rw [pair_total (by norm_num) (by norm_num)] <;> norm_num [pairLaw]

theorem pair_pace : pace pairCtbn pairCtbn.inverseRates pairLaw = 24 / 11 := by
  unfold pace
  rw [pair_sum, pair_total (by norm_num) (by norm_num), pair_total (by norm_num) (by norm_num), pair_total (by norm_num) (by norm_num), pair_total (by norm_num) (by norm_num)]
  norm_num [pairLaw]

theorem pair_share : share pairCtbn pairLaw "Y" [] 0 [] = 9 / 22 := by
  unfold share
  have h : ∀ x < 2, ∀ y < 2, Circumstances pairCtbn "Y" [] 0 [] [x, y] ↔ y = 0 := by decide
  rw [pair_sum]
  simp only [h 0 (by norm_num) 0 (by norm_num), h 0 (by norm_num) 1 (by norm_num), h 1 (by norm_num) 0 (by norm_num), h 1 (by norm_num) 1 (by norm_num)]
  norm_num [pairLaw]

theorem pair_flux : flux pairCtbn pairCtbn.inverseRates pairLaw "Y" [] 0 1 [] = 13 / 22 := by
  unfold flux
  have h : ∀ x < 2, ∀ y < 2, Circumstances pairCtbn "Y" [] 0 [] [x, y] ↔ y = 0 := by decide
  rw [pair_sum]
  simp only [h 0 (by norm_num) 0 (by norm_num), h 0 (by norm_num) 1 (by norm_num), h 1 (by norm_num) 0 (by norm_num), h 1 (by norm_num) 1 (by norm_num)]
  rw [pair_rateY (x := 0) (y := 0) (by norm_num) (by norm_num) (by norm_num), pair_rateY (x := 1) (y := 0) (by norm_num) (by norm_num) (by norm_num)]
  norm_num [pairLaw]

/-- C190: about 3/16 of a unit of time per transition is spent with `Y` in 0; 13 of 48 transitions are of `Y` from 0 to 1. -/
example : (∃ B : ℝ, ∀ (n : Nat), 1 ≤ n → ∀ {ε : ℝ}, 0 < ε → drawLaw 2 (Measure.infinitePi choiceLaw) {ω |
      ε ≤ |(rawResidence ["X", "Y"] [sampledRows pairNet someCategorical n ω] "Y" [] 0 [] : ℝ) / n - 3 / 16|} ≤ ENNReal.ofReal (B / (ε ^ 2 * n))) ∧
    ∃ B : ℝ, ∀ (n : Nat), 1 ≤ n → ∀ {ε : ℝ}, 0 < ε → drawLaw 2 (Measure.infinitePi choiceLaw) {ω |
      ε ≤ |(rawTransitions ["X", "Y"] [sampledRows pairNet someCategorical n ω] "Y" [] 0 1 [] : ℝ) / n - 13 / 48|} ≤ ENNReal.ofReal (B / (ε ^ 2 * n)) := by
  have h1 := sample_residence_mean pair_describes pair_ok someCategorical pair_conservative pair_irreducible pair_stationary (v := "Y") (by decide) (L := []) (by simp) 0 []
  have h2 := sample_transitions_mean pair_describes pair_ok someCategorical pair_conservative pair_irreducible pair_stationary (v := "Y") (by decide) (L := []) (by simp)
    (x := 0) (y := 1) (by decide) (by decide) []
  rw [pair_share, pair_pace, show (9 : ℝ) / 22 / (24 / 11) = 3 / 16 by norm_num] at h1
  rw [pair_flux, pair_pace, show (13 : ℝ) / 22 / (24 / 11) = 13 / 48 by norm_num] at h2
  exact ⟨h1, h2⟩

/-- C191: without its parent, `Y`'s intensity of leaving 0 - 1 or 1/2 in the network, 1 or 2 in the sampled trajectories - is estimated as 13/9. -/
example {ε : ℝ} (hε : 0 < ε) : Tendsto (fun n => drawLaw 2 (Measure.infinitePi choiceLaw) {ω |
      ε ≤ |((rawTransitions ["X", "Y"] [sampledRows pairNet someCategorical n ω] "Y" [] 0 1 [] : ℝ) + 1)
        / ((rawResidence ["X", "Y"] [sampledRows pairNet someCategorical n ω] "Y" [] 0 [] : ℝ) + 1) - 13 / 9|}) atTop (𝓝 0) := by
  have h := sample_estimate_limit pair_describes pair_ok someCategorical pair_conservative pair_irreducible pair_stationary (v := "Y") (by decide) (L := []) (by simp)
    (x := 0) (y := 1) (by decide) (by decide) [] (by rw [pair_share]; norm_num) hε
  rw [pair_share, pair_flux, show (13 : ℝ) / 22 / (9 / 22) = 13 / 9 by norm_num] at h
  exact h

/-- C192: with its parent, it is estimated as 2 when `X` is in 1. -/
example {ε : ℝ} (hε : 0 < ε) : Tendsto (fun n => drawLaw 2 (Measure.infinitePi choiceLaw) {ω |
      ε ≤ |((rawTransitions ["X", "Y"] [sampledRows pairNet someCategorical n ω] "Y" ["X"] 0 1 [1] : ℝ) + 1)
        / ((rawResidence ["X", "Y"] [sampledRows pairNet someCategorical n ω] "Y" ["X"] 0 [1] : ℝ) + 1) - 2|}) atTop (𝓝 0) := by
  have h := sample_estimate_parents pair_describes pair_ok someCategorical pair_conservative pair_irreducible (v := "Y") (by decide) (L := ["X"]) (by decide)
    (by decide) (x := 0) (y := 1) (by decide) (by decide) (vals := [1, 0]) ⟨rfl, by decide⟩ (by decide) hε
  have e : pairCtbn.inverseAt "Y" (pairCtbn.parentStates [1, 0] "Y") 0 1 = 2 := by
    unfold Ctbn.inverseAt
    have e1 : pairCtbn.intensityAt "Y" (pairCtbn.parentStates [1, 0] "Y") 0 1 = 1 / 2 := by decide +kernel
    have e2 : pairCtbn.exitAt "Y" (pairCtbn.parentStates [1, 0] "Y") 0 = 1 / 2 := by decide +kernel
    rw [e1, e2]; norm_num
  rw [e] at h
  exact h

end Demo
end PyCTBN
