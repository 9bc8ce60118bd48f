import Verif.Lemmas.FloatScore
import Verif.Props.Float
import Verif.Props.FloatTest
import Verif.Props.Ranking
import Verif.Props.TimeUnit
import Verif.Props.LocalOpt

/-!
# C175, C176: the score and score-based estimation in floating point
-/

namespace PyCTBN
open Spec

namespace Spec

/-- Rounding real numbers to `p` significant bits, to the nearest (halves up). -/
noncomputable def realRound (p : Nat) (x : ℝ) : ℝ :=
  let ulp : ℝ := (2 : ℝ) ^ (Int.log 2 |x| - p + 1)
  (round (x / ulp) : ℝ) * ulp

/-- A floating-point environment with `p` bits: every operation, `log` and `loggamma` return the exact result rounded once. -/
noncomputable def correctMath (p : Nat) : FloatMath := ⟨realRound p, fun x => realRound p (Real.log x), fun x => realRound p (FamScore.loggamma x)⟩

/-- The size of the terms of the score of `n` with the parents `ls`: the sum over the assignments of parents with `ps` states. -/
noncomputable def scoreSize (s : Structure) (t : Trajectory) (τ α : ℝ) (n : Label) (ls : List Label) (c : Nat) (ps : List Nat) : ℝ :=
  ((buildPCombs ps).map (fun w => (observed s t n ls c w).size τ α c)).sum

end Spec

/-- Such an environment meets the assumptions with `u = 2⁻ᵖ` and one error per function. -/
theorem realRound_accurate (p : Nat) : Accurate ((1 : ℝ) / 2 ^ p) (realRound p) := by
  intro x
  by_cases hx : x = 0
  · subst hx; simp [realRound]
  have hpos : 0 < |x| := abs_pos.2 hx
  have hu : (0 : ℝ) < (2 : ℝ) ^ (Int.log 2 |x| - p + 1) := zpow_pos (by norm_num) _
  have hb := Int.zpow_log_le_self (b := 2) (by norm_num) hpos
  unfold realRound
  dsimp only
  set ulp : ℝ := (2 : ℝ) ^ (Int.log 2 |x| - p + 1) with hulp
  have e : (round (x / ulp) : ℝ) * ulp - x = ((round (x / ulp) : ℝ) - x / ulp) * ulp := by field_simp
  rw [e, abs_mul, abs_of_pos hu]
  have h1 : |(round (x / ulp) : ℝ) - x / ulp| ≤ 1 / 2 := by rw [abs_sub_comm]; exact abs_sub_round _
  have h2 : ulp / 2 = (2 : ℝ) ^ (Int.log 2 |x|) / 2 ^ p := by
    rw [hulp, zpow_add₀ (by norm_num), zpow_sub₀ (by norm_num), zpow_natCast]
    simp
  have h3 : (2 : ℝ) ^ (Int.log 2 |x|) / 2 ^ p ≤ 1 / 2 ^ p * |x| := by
    rw [div_eq_mul_one_div, mul_comm]
    apply mul_le_mul_of_nonneg_left _ (by positivity)
    exact_mod_cast hb
  nlinarith

theorem correctMath_ok {p : Nat} (hp : p ≠ 0) : MathOK ((1 : ℝ) / 2 ^ p) 1 (correctMath p) := by
  have key : ∀ L : ℝ, |realRound p L - L| ≤ gam ((1 : ℝ) / 2 ^ p) 1 * (1 + |L|) := by
    intro L
    have h := realRound_accurate p L
    have h1 : (1 : ℝ) / 2 ^ p < 1 := by
      rw [div_lt_one (by positivity)]
      exact one_lt_pow₀ (by norm_num) hp
    have h0 : (0 : ℝ) ≤ 1 / 2 ^ p := by positivity
    have := u_le_gam h0 h1
    have ha := abs_nonneg L
    nlinarith
  exact ⟨realRound_accurate p, fun x _ => key _, fun x _ => key _⟩

section
variable {s : Structure} {g g' : NetworkGraph} {n : Label} {c : Nat} {ps : List Nat} {t : Trajectory} {rnd : ℚ → ℚ} {u : ℚ} {N k a : Nat} {times' : List ℚ}
  {F : FloatMath} {τ α : ℝ}

/-- **C175.**  The score computed in floating point from durations with `k` relative errors: it is returned whenever the exact score is, and differs from it by at
most `gam u m` times the sum of the sizes of the terms, where `m = a + k + rows + 2c + (number of parent assignments) + 7`. -/
theorem float_famscore_near (hg : Reach s g) (hpos : PosCards s) (hn : n ∈ s.labels) (hcn : s.getStatesNumber n = .ok c)
    (hps : ps.map Except.ok = (parentsOf g n).map s.getStatesNumber) (hcards : ExactCards c ps) (ht : DataOK s t) (htime : ∀ d ∈ t.times, 0 ≤ d)
    (h0 : 0 ≤ u) (h1 : u < 1) (ha : Accurate u rnd) (hex : ExactInts N rnd) (hN : c * c * (c + topParentSlot ps) ≤ N) (hrows : t.rows.length < N)
    (hk : List.Forall₂ (Near u k) times' t.times) (hF : MathOK (u : ℝ) a F) (hc : 2 ≤ c) (hτ : 0 < τ) (hα : 0 < α) (hf : g.fastInit n = .ok g') :
    ∃ v v', famScoreOn t τ α n g' = .ok v ∧ F.famScoreOn rnd { t with times := times' } τ α n g' = .ok v' ∧
      |v' - v| ≤ gam (u : ℝ) (a + (k + t.rows.length) + 2 * c + ps.prod + 7) * scoreSize s t τ α n (parentsOf g n) c ps := by
  have h0' : (0 : ℝ) ≤ u := by exact_mod_cast h0
  have h1' : (u : ℝ) < 1 := by exact_mod_cast h1
  obtain ⟨sofc, q, e1, e2⟩ := estimate_cims_observed hg ht hn hcn (by omega) hps hcards
  rcases float_estimation_near s g hg hpos n hn c hcn ps hps t ht htime rnd u h0 h1 ha N hex hN hrows k times' hk with ⟨e, d1, -⟩ | ⟨A, B, d1, d2, -, d4⟩
  · rw [e1] at d1; cases d1
  rw [e1] at d1; cases d1
  have hx : famScoreOn t τ α n g' = FamScore.getFamScore sofc.cims τ α := by
    have : computeOn t g' n = .ok sofc := by
      have := estimate_split t g n
      rw [e1, hf] at this
      exact this.symm
    unfold famScoreOn
    rw [this]; rfl
  have hy : F.famScoreOn rnd { t with times := times' } τ α n g' = F.getFamScore B.cims τ α := by
    unfold ParamsEst.estimateF at d2
    rw [hf] at d2
    simp only [Except.bind_ok'] at d2
    unfold FloatMath.famScoreOn
    cases h3 : (ParamsEst.new { t with times := times' } g').fastInit n with
    | error e => rw [h3] at d2; cases d2
    | ok e =>
      rw [h3] at d2
      simp only [Except.bind_ok'] at d2 ⊢
      cases h4 : e.computeParametersF rnd n with
      | error e => rw [h4] at d2; cases d2
      | ok o => rw [h4] at d2; cases d2; rfl
  rw [hx, hy]
  have hlenP : (buildPCombs ps).length = ps.prod := (p_combs_enumeration_partial ps hcards.2).2.2
  have hppos : 0 < ps.prod := by
    apply prod_pos_of_pos
    intro p hp
    obtain ⟨l, hl, e⟩ := List.mem_map.1 (hps ▸ List.mem_map_of_mem (f := Except.ok) hp : Except.ok p ∈ (parentsOf g n).map s.getStatesNumber)
    obtain ⟨hI, hs⟩ := hg.inv
    obtain ⟨w, hw, e'⟩ := getStatesNumber_mem (hs ▸ hI.cs.toWFStructure) (hs ▸ mem_parentsOf hl : l ∈ s.labels)
    rw [e] at e'; cases e'
    exact hpos _ hw
  have hcims : sofc.cims = (buildPCombs ps).map (fun w => (observed s t n (parentsOf g n) c w).toCim c (q w)) := by
    rw [e2]; unfold cimsFor; rw [List.map_map]; rfl
  rw [hcims] at d4 ⊢
  have hl4 := d4.length_eq
  rw [List.length_map] at hl4
  -- pairs of an assignment and the computed matrix
  set L := (buildPCombs ps).zip B.cims with hL
  have hL1 : L.map Prod.fst = buildPCombs ps := List.map_fst_zip (by omega)
  have hL2 : L.map Prod.snd = B.cims := List.map_snd_zip (by omega)
  have hpair : ∀ p ∈ L, CimNear u (k + t.rows.length) p.2 ((observed s t n (parentsOf g n) c p.1).toCim c (q p.1)) := by
    have h5 := d4
    rw [← hL1, ← hL2, List.map_map] at h5
    intro p hp
    have := List.forall₂_map_left_iff.1 h5
    have := List.forall₂_map_right_iff.1 this
    exact (List.forall₂_same.1 this) p hp
  have key := getFamScoreF_within (u := (u : ℝ)) (k := k + t.rows.length) (l := L) h0' h1' hF hτ hα hc
    (by intro h; have : (L.map Prod.fst).length = 0 := by rw [h]; rfl
        rw [hL1, hlenP] at this; omega)
    (s := fun p => observed s t n (parentsOf g n) c p.1)
    (s' := fun p => ⟨fun x => (p.2.resTimes[x]?).getD 0, (observed s t n (parentsOf g n) c p.1).count⟩)
    (q := fun p => q p.1) (q' := fun p => p.2.cim)
    (fun _ _ _ _ _ _ => rfl)
    (by
      intro p hp x hx
      refine ⟨residence_nonneg htime _ _ _, ?_⟩
      have h6 := (hpair p hp).times
      have hl6 := h6.length_eq
      simp only [Stats.toCim, List.length_map, List.length_range] at hl6
      have h7 := List.Forall₂.get h6 (i := x) (by omega) (by simp [Stats.toCim]; omega)
      simp only [Stats.toCim, List.get_eq_getElem, List.getElem_map, List.getElem_range] at h7
      dsimp only
      rw [List.getElem?_eq_getElem (by omega)]
      exact near_cast h7)
  have hB : L.map (fun p => (⟨fun x => (p.2.resTimes[x]?).getD 0, (observed s t n (parentsOf g n) c p.1).count⟩ : Stats).toCim c p.2.cim) = B.cims := by
    rw [← hL2]
    apply List.map_congr_left
    intro p hp
    have h8 := hpair p hp
    have hl8 := h8.times.length_eq
    simp only [Stats.toCim, List.length_map, List.length_range] at hl8
    have ht8 := h8.counts
    obtain ⟨w, C⟩ := p
    obtain ⟨rt, tr, cm⟩ := C
    simp only at ht8 hl8
    unfold Stats.toCim
    simp only [Cim.mk.injEq, and_true]
    constructor
    · apply List.ext_getElem (by simp [hl8])
      intro i h9 h10
      simp only [List.getElem_map, List.getElem_range]
      rw [List.getElem?_eq_getElem h10]; rfl
    · rw [ht8]; rfl
  have hA : L.map (fun p => (observed s t n (parentsOf g n) c p.1).toCim c (q p.1)) =
      (buildPCombs ps).map (fun w => (observed s t n (parentsOf g n) c w).toCim c (q w)) := by
    rw [← hL1, List.map_map]; rfl
  rw [hA, hB] at key
  obtain ⟨v, v', k1, k2, k3⟩ := key
  refine ⟨v, v', k1, k2, ?_⟩
  have hlen : L.length = ps.prod := by rw [← hlenP, ← hL1, List.length_map]
  rw [hlen] at k3
  have hsz : (L.map (fun p => (observed s t n (parentsOf g n) c p.1).size τ α c)).sum = scoreSize s t τ α n (parentsOf g n) c ps := by
    unfold scoreSize
    rw [← hL1, List.map_map]; rfl
  have := k3.1
  rw [hsz] at this
  exact this

/-! ## Score-based estimation -/

/-- The computed score through the estimation of the node's statistics. -/
theorem famScoreOnF_eq (hf : g.fastInit n = .ok g') :
    F.famScoreOn rnd t τ α n g' = ParamsEst.estimateF rnd t g n >>= fun S => F.getFamScore S.cims τ α := by
  unfold FloatMath.famScoreOn ParamsEst.estimateF
  rw [hf]
  simp only [Except.bind_ok']
  cases h3 : (ParamsEst.new t g').fastInit n with
  | error e => rfl
  | ok e =>
    simp only [Except.bind_ok']
    cases h4 : e.computeParametersF rnd n <;> rfl

/-- A variable with a single state has no score in either arithmetic. -/
theorem float_famscore_one_state (hg : Reach s g) (hpos : PosCards s) (hn : n ∈ s.labels) (hcn : s.getStatesNumber n = .ok 1)
    (hps : ps.map Except.ok = (parentsOf g n).map s.getStatesNumber) (hcards : ExactCards 1 ps) (ht : DataOK s t) (htime : ∀ d ∈ t.times, 0 ≤ d)
    (h0 : 0 ≤ u) (h1 : u < 1) (ha : Accurate u rnd) (hex : ExactInts N rnd) (hN : 1 + topParentSlot ps ≤ N) (hrows : t.rows.length < N)
    (hk : List.Forall₂ (Near u k) times' t.times) (hf : g.fastInit n = .ok g') :
    famScoreOn t τ α n g' = .error .zeroDivisionError ∧ F.famScoreOn rnd { t with times := times' } τ α n g' = .error .zeroDivisionError := by
  obtain ⟨sofc, q, e1, e2⟩ := estimate_cims_observed hg ht hn hcn (by omega) hps hcards
  rcases float_estimation_near s g hg hpos n hn 1 hcn ps hps t ht htime rnd u h0 h1 ha N hex (by omega) hrows k times' hk with ⟨e, d1, -⟩ | ⟨A, B, d1, d2, -, d4⟩
  · rw [e1] at d1; cases d1
  rw [e1] at d1; cases d1
  have hx : famScoreOn t τ α n g' = FamScore.getFamScore sofc.cims τ α := by
    have : computeOn t g' n = .ok sofc := by
      have := estimate_split t g n
      rw [e1, hf] at this
      exact this.symm
    unfold famScoreOn
    rw [this]; rfl
  rw [hx, famScoreOnF_eq hf, d2]
  simp only [Except.bind_ok']
  have hlenP : (buildPCombs ps).length = ps.prod := (p_combs_enumeration_partial ps hcards.2).2.2
  have hppos : 0 < ps.prod := by
    apply prod_pos_of_pos
    intro p hp
    rcases hcards.1 p hp with rfl | rfl <;> omega
  rw [e2] at d4 ⊢
  unfold cimsFor at d4 ⊢
  rw [List.map_map] at d4 ⊢
  obtain ⟨w, ws, hw⟩ : ∃ w ws, buildPCombs ps = w :: ws := by
    cases hb : buildPCombs ps with
    | nil => rw [hb] at hlenP; simp at hlenP; omega
    | cons w ws => exact ⟨w, ws, rfl⟩
  rw [hw, List.map_cons] at d4 ⊢
  cases hB : B.cims with
  | nil => rw [hB] at d4; cases d4
  | cons C Cs =>
    rw [hB] at d4
    cases d4 with
    | cons hC _ =>
      have hl := hC.times.length_eq
      simp only [Function.comp, Stats.toCim, List.length_map, List.length_range] at hl
      constructor
      · unfold FamScore.getFamScore
        rw [pyGet_ok.2 (by rfl : _ = some _)]
        simp only [Except.bind_ok']
        rw [if_pos (by simp [Stats.toCim])]
      · unfold FloatMath.getFamScore
        rw [pyGet_ok.2 (by rfl : _ = some _)]
        simp only [Except.bind_ok']
        rw [if_pos hl]

/-- The parents used are those of the initialised graph, in the order of the labels. -/
theorem parentsOf_initialised (h : Reach s g) (hn : n ∈ s.labels) (hf : g.fastInit n = .ok g') :
    parentsOf g n = s.labels.filter (fun l => decide (l ∈ parentsIn g'.edges n)) := by
  rw [parentsOf_eq h]
  obtain ⟨hI, hs⟩ := h.inv
  obtain ⟨g2, d, k1, -, -, -, k5, -⟩ := fastInit_spec hI (n := n) (by rw [hs]; exact hn)
  rw [hf] at k1; cases k1
  congr 1
  funext l
  have h' : Reach s g' := Reach.fastInit n h hn hf
  rw [decide_eq_decide, mem_parentsIn, reach_mem_edges h', k5, hs]

theorem famScoreOnF_parents (hg : Reach s g) (hn : n ∈ s.labels) (hf : g.fastInit n = .ok g') {h h' : NetworkGraph} (hh : Reach s h)
    (hf' : h.fastInit n = .ok h') (he : parentsIn g'.edges n = parentsIn h'.edges n) :
    F.famScoreOn rnd t τ α n g' = F.famScoreOn rnd t τ α n h' := by
  have hp : parentsOf g n = parentsOf h n := by rw [parentsOf_initialised hg hn hf, parentsOf_initialised hh hn hf', he]
  rw [famScoreOnF_eq hf, famScoreOnF_eq hf']
  obtain ⟨c, i, ps, is, a1, a2, a3, a4, a5⟩ := estimateF_unfold hg hn
  obtain ⟨c', i', ps', is', b1, b2, b3, b4, b5⟩ := estimateF_unfold hh hn
  have hinj : ∀ {a b : List Nat}, a.map (Except.ok (ε := PyErr)) = b.map Except.ok → a = b :=
    fun h => (List.map_injective_iff.2 (fun _ _ h => Except.ok.inj h)) h
  rw [a1] at b1; cases b1
  rw [a2] at b2; cases b2
  rw [← hp] at b3 b4
  cases hinj (a3.trans b3.symm)
  cases hinj (a4.trans b4.symm)
  rw [a5, b5]

theorem topParentSlot_uniform (c : Nat) (hc : 0 < c) (ls : List Label) : c + topParentSlot (ls.map (fun _ => c)) = c ^ (ls.length + 1) := by
  induction ls with
  | nil => simp [topParentSlot]
  | cons l ls ih =>
    simp only [List.map_cons, topParentSlot, List.length_cons]
    rw [pow_succ, ← ih]
    obtain ⟨d, rfl⟩ : ∃ d, c = d + 1 := ⟨c - 1, by omega⟩
    simp only [Nat.add_sub_cancel]
    ring

namespace Spec

/-- How far the computed score of `n` with the parents `K` can be from the exact one, when all variables have `c` states: `gam u m` times the size of the
terms, with `m = j + 2c + c^(number of parents) + 7` errors. -/
noncomputable def scoreError (u : ℝ) (j : Nat) (s : Structure) (t : Trajectory) (τ α : ℝ) (n : Label) (c : Nat) (K : Finset Label) : ℝ :=
  let ls := s.labels.filter (fun l => decide (l ∈ K))
  gam u (j + 2 * c + c ^ ls.length + 7) * scoreSize s t τ α n ls c (ls.map (fun _ => c))

/-- No two parent sets of a variable have scores as near to each other as rounding could move them. -/
def ScoresApart (u : ℝ) (j : Nat) (s : Structure) (t : Trajectory) (τ α : ℝ) (c : Nat) : Prop :=
  ∀ n ∈ s.labels, ∀ K K' : Finset Label, K ≠ K' → K ⊆ s.labels.toFinset.erase n → K' ⊆ s.labels.toFinset.erase n →
    ∀ v v', scoreOfParents s t τ α n K = .ok v → scoreOfParents s t τ α n K' = .ok v' →
      scoreError u j s t τ α n c K + scoreError u j s t τ α n c K' < |v - v'|

end Spec

/-- C175 for variables that all have `c` states. -/
theorem float_famscore_uniform (hU : UniformData s t c) (hc : 2 ≤ c) (hg : Reach s g) (hn : n ∈ s.labels)
    (h0 : 0 ≤ u) (h1 : u < 1) (ha : Accurate u rnd) (hex : ExactInts N rnd) (hN : c ^ (s.labels.length + 3) ≤ N) (hrows : t.rows.length < N)
    (hk : List.Forall₂ (Near u k) times' t.times) (hF : MathOK (u : ℝ) a F) (hτ : 0 < τ) (hα : 0 < α) (hf : g.fastInit n = .ok g') :
    ∃ v v', famScoreOn t τ α n g' = .ok v ∧ F.famScoreOn rnd { t with times := times' } τ α n g' = .ok v' ∧
      |v' - v| ≤ scoreError u (a + (k + t.rows.length)) s t τ α n c (parentsIn g'.edges n) := by
  have hcn : ∀ l ∈ s.labels, s.getStatesNumber l = .ok c := by
    intro l hl
    obtain ⟨w, hw', e⟩ := getStatesNumber_mem hU.wf hl
    rw [e, hU.cards w hw']
  obtain ⟨hI, hs⟩ := hg.inv
  have hps : ((parentsOf g n).map (fun _ => c)).map Except.ok = (parentsOf g n).map s.getStatesNumber := by
    rw [List.map_map]
    apply List.map_congr_left
    intro l hl
    rw [hcn l (hs ▸ mem_parentsOf hl)]
    rfl
  have hall : ∀ p ∈ (parentsOf g n).map (fun _ => c), p = c := by
    intro p hp; obtain ⟨_, _, rfl⟩ := List.mem_map.1 hp; rfl
  have hex' : ExactCards c ((parentsOf g n).map (fun _ => c)) := by
    refine ⟨fun p hp => Or.inr (hall p hp), fun p q rest h => ?_⟩
    rw [h] at hall
    rw [hall p (by simp), hall q (by simp)]
  have hpos : PosCards s := fun v hv => by rw [hU.cards v hv]; omega
  have hlen : (parentsOf g n).length ≤ s.labels.length := by
    rw [parentsOf_initialised hg hn hf]
    exact List.length_filter_le _ _
  have := float_famscore_near hg hpos hn (hcn n hn) hps hex' hU.data hU.times h0 h1 ha hex (by
    rw [topParentSlot_uniform c (by omega)]
    refine le_trans ?_ hN
    rw [show c * c * c ^ ((parentsOf g n).length + 1) = c ^ ((parentsOf g n).length + 3) by ring]
    exact Nat.pow_le_pow_right (by omega) (by omega)) hrows hk hF hc hτ hα hf
  obtain ⟨v, v', k1, k2, k3⟩ := this
  refine ⟨v, v', k1, k2, k3.trans (le_of_eq ?_)⟩
  unfold scoreError
  rw [← parentsOf_initialised hg hn hf]
  simp

/-- **C176.**  Score-based estimation in floating point returns the edges, the report and the estimator of exact estimation, for the same draws, unless two parent
sets of some variable have exact scores within the error bound of C175 of each other. -/
theorem float_estimate_structure {e : Estimator} {rem : List (List Bool)} {known : List Edge} (hU : UniformData e.struct.cleanEdges t c) (hc : 2 ≤ c)
    (h0 : 0 ≤ u) (h1 : u < 1) (ha : Accurate u rnd) (hex : ExactInts N rnd) (hN : c ^ (e.struct.labels.length + 3) ≤ N) (hrows : t.rows.length < N)
    (hk : List.Forall₂ (Near u k) times' t.times) (hF : MathOK (u : ℝ) a F) (hτ : 0 < τ) (hα : 0 < α)
    (hapart : ScoresApart u (a + (k + t.rows.length)) e.struct.cleanEdges t τ α c) {args : SBArgs} {order : Option (List Label)}
    {picks drops : Label → Nat → Nat} (ho : ∀ o, order = some o → o.Perm e.struct.labels) (hI : SearchInput e.struct.cleanEdges rem known) :
    estimateStructure (F.famScoreOn rnd { t with times := times' } τ α) rem e args order picks drops =
      estimateStructure (famScoreOn t τ α) rem e args order picks drops := by
  have hcl : ClosedStructure e.struct.cleanEdges := closed_noEdges hU.wf rfl
  have hev : ∀ m ∈ e.struct.labels, ∀ g, Evaluated e.struct.cleanEdges m g → ∃ g0, Reach e.struct.cleanEdges g0 ∧ g0.fastInit m = .ok g ∧
      parentsIn g.edges m ⊆ e.struct.labels.toFinset.erase m := by
    rintro m hm g ⟨g0, r, hl, f⟩
    refine ⟨g0, r, f, ?_⟩
    intro l hlm
    obtain ⟨hI, hs⟩ := r.inv
    obtain ⟨g2, d, k1, -, -, -, k5, -⟩ := fastInit_spec hI (n := m) (by rw [hs]; exact hm)
    rw [f] at k1; cases k1
    rw [mem_parentsIn, reach_mem_edges (Reach.fastInit m r hm f), k5, hs] at hlm
    have hlm' : (l, m) ∈ g0.graph.edges := hlm.resolve_right (fun h => List.not_mem_nil h)
    have h2 := hl _ ((reach_mem_edges r _).2 hlm')
    rw [Finset.mem_erase, List.mem_toFinset]
    refine ⟨h2.2, ?_⟩
    have := (hI.edgesClosed _ hlm').1
    rw [hs] at this
    exact this
  refine estimate_ranking ho hI (fun m hm => ⟨fun g hg x => ?_, fun g h hg hh b1 b2 a1 a2 hb1 hb2 ha1 ha2 => ?_⟩)
  · obtain ⟨g0, r, f, -⟩ := hev m hm g hg
    obtain ⟨v, v', k1, k2, -⟩ := float_famscore_uniform hU hc r hm h0 h1 ha hex hN hrows hk hF hτ hα f
    rw [k1, k2]; simp
  · obtain ⟨g0, r, f, sub⟩ := hev m hm g hg
    obtain ⟨g1, r', f', sub'⟩ := hev m hm h hh
    obtain ⟨v, v', k1, k2, k3⟩ := float_famscore_uniform hU hc r hm h0 h1 ha hex hN hrows hk hF hτ hα f
    obtain ⟨w, w', l1, l2, l3⟩ := float_famscore_uniform hU hc r' hm h0 h1 ha hex hN hrows hk hF hτ hα f'
    have s1 := scoreOf_famScore hcl t τ α rem hm g0 g r f
    have s2 := scoreOf_famScore hcl t τ α rem hm g1 h r' f'
    have s1' : famScoreOn t τ α m g = _ := s1
    have s2' : famScoreOn t τ α m h = _ := s2
    rw [ha1] at k1; rw [ha2] at l1; rw [hb1] at k2; rw [hb2] at l2
    cases k1; cases l1; cases k2; cases l2
    by_cases hK : parentsIn g.edges m = parentsIn h.edges m
    · have hs : a1 = a2 := by
        rw [hK, ← s2', ha1, ha2] at s1'
        exact Except.ok.inj s1'
      have hs' : b1 = b2 := by
        have := famScoreOnF_parents (F := F) (rnd := rnd) (t := { t with times := times' }) (τ := τ) (α := α) r hm f r' f' hK
        rw [hb1, hb2] at this
        exact Except.ok.inj this
      rw [hs, hs']
      simp
    · have := hapart m hm _ _ hK sub sub' a1 a2 (by rw [← s1']; exact ha1) (by rw [← s2']; exact ha2)
      rw [abs_le] at k3 l3
      rcases lt_abs.1 this with h9 | h9 <;> constructor <;> intro h10 <;> linarith

/-! ## Enough precision -/

theorem gam_tendsto (m : Nat) : Filter.Tendsto (fun u : ℝ => gam u m) (nhds 0) (nhds 0) := by
  have : ContinuousAt (fun u : ℝ => ((1 - u) ^ m)⁻¹ - 1) 0 := by
    apply ContinuousAt.sub _ continuousAt_const
    exact ContinuousAt.inv₀ (by fun_prop) (by simp)
  have h := this.tendsto
  simpa [gam] using h

namespace Spec

/-- Different parent sets of a variable have different exact scores. -/
def NoTies (s : Structure) (t : Trajectory) (τ α : ℝ) : Prop :=
  ∀ n ∈ s.labels, ∀ K K' : Finset Label, K ≠ K' → K ⊆ s.labels.toFinset.erase n → K' ⊆ s.labels.toFinset.erase n →
    scoreOfParents s t τ α n K ≠ scoreOfParents s t τ α n K'

end Spec

theorem apart_eventually (hT : NoTies s t τ α) (j c : Nat) : ∀ᶠ u in nhds (0 : ℝ), ScoresApart u j s t τ α c := by
  have key : ∀ n ∈ s.labels.toFinset, ∀ K ∈ (s.labels.toFinset.erase n).powerset, ∀ K' ∈ (s.labels.toFinset.erase n).powerset,
      ∀ᶠ u in nhds (0 : ℝ), K ≠ K' → ∀ v v', scoreOfParents s t τ α n K = .ok v → scoreOfParents s t τ α n K' = .ok v' →
        scoreError u j s t τ α n c K + scoreError u j s t τ α n c K' < |v - v'| := by
    intro n hn K hK K' hK'
    by_cases hne : K = K'
    · exact .of_forall (fun u h => absurd hne h)
    have hd := hT n (List.mem_toFinset.1 hn) K K' hne (Finset.mem_powerset.1 hK) (Finset.mem_powerset.1 hK')
    cases h1 : scoreOfParents s t τ α n K with
    | error e => exact .of_forall (fun u _ v v' h => by cases h)
    | ok v0 =>
      cases h2 : scoreOfParents s t τ α n K' with
      | error e => exact .of_forall (fun u _ v v' _ h => by cases h)
      | ok v1 =>
        rw [h1, h2] at hd
        have hpos : 0 < |v0 - v1| := abs_pos.2 (fun h => hd (by rw [sub_eq_zero.1 h]))
        have hlim : Filter.Tendsto (fun u : ℝ => scoreError u j s t τ α n c K + scoreError u j s t τ α n c K') (nhds 0) (nhds 0) := by
          have := ((gam_tendsto (j + 2 * c + c ^ (s.labels.filter (fun l => decide (l ∈ K))).length + 7)).mul_const
            (scoreSize s t τ α n (s.labels.filter (fun l => decide (l ∈ K))) c ((s.labels.filter (fun l => decide (l ∈ K))).map (fun _ => c)))).add
            ((gam_tendsto (j + 2 * c + c ^ (s.labels.filter (fun l => decide (l ∈ K'))).length + 7)).mul_const
            (scoreSize s t τ α n (s.labels.filter (fun l => decide (l ∈ K'))) c ((s.labels.filter (fun l => decide (l ∈ K'))).map (fun _ => c))))
          simpa [scoreError] using this
        filter_upwards [hlim.eventually_lt_const hpos] with u hu _ v v' e1 e2
        cases e1; cases e2
        exact hu
  have := (Finset.eventually_all _).2 (fun n hn => (Finset.eventually_all _).2 (fun K hK => (Finset.eventually_all _).2 (fun K' hK' => key n hn K hK K' hK')))
  filter_upwards [this] with u hu n hn K K' hne hK hK' v v' h1 h2
  exact hu n (List.mem_toFinset.2 hn) K (Finset.mem_powerset.2 hK) K' (Finset.mem_powerset.2 hK') hne v v' h1 h2

/-- **C176.**  Without ties between exact scores some precision is enough: with at least `p₀` bits, whatever the draws, the options and the environment of the stated
accuracy, estimation in floating point returns what exact estimation returns. -/
theorem float_estimate_enough_bits {e : Estimator} {rem : List (List Bool)} {known : List Edge} (hU : UniformData e.struct.cleanEdges t c) (hc : 2 ≤ c)
    (hτ : 0 < τ) (hα : 0 < α) (hT : NoTies e.struct.cleanEdges t τ α) (hI : SearchInput e.struct.cleanEdges rem known) (a k : Nat) :
    ∃ p₀, ∀ p ≥ p₀, ∀ (F : FloatMath) (times' : List ℚ), MathOK (1 / 2 ^ p) a F → List.Forall₂ (Near (1 / 2 ^ p) k) times' t.times →
      ∀ (args : SBArgs) (order : Option (List Label)) (picks drops : Label → Nat → Nat), (∀ o, order = some o → o.Perm e.struct.labels) →
      estimateStructure (F.famScoreOn (binRound p) { t with times := times' } τ α) rem e args order picks drops =
        estimateStructure (famScoreOn t τ α) rem e args order picks drops := by
  have h1 := apart_eventually hT (a + (k + t.rows.length)) c
  have h2 : Filter.Tendsto (fun p : Nat => (1 : ℝ) / 2 ^ p) Filter.atTop (nhds 0) := by
    have := tendsto_pow_atTop_nhds_zero_of_lt_one (r := (1 / 2 : ℝ)) (by norm_num) (by norm_num)
    simpa [div_pow] using this
  obtain ⟨p1, hp1⟩ := Filter.eventually_atTop.1 (h2.eventually h1)
  refine ⟨max p1 (max 1 (c ^ (e.struct.labels.length + 3) + t.rows.length)), fun p hp F times' hF hk args order picks drops ho => ?_⟩
  have hb : c ^ (e.struct.labels.length + 3) + t.rows.length < 2 ^ p :=
    lt_of_le_of_lt ((le_max_right _ _).trans ((le_max_right _ _).trans hp)) Nat.lt_two_pow_self
  have hp0 : 0 < p := lt_of_lt_of_le one_pos ((le_max_left _ _).trans ((le_max_right _ _).trans hp))
  have hu : ((1 / 2 ^ p : ℚ) : ℝ) = 1 / 2 ^ p := by push_cast; rfl
  refine float_estimate_structure (u := 1 / 2 ^ p) (a := a) (k := k) (N := 2 ^ p) hU hc (by positivity) ?_ (binRound_accurate p) (binRound_exactInts p hp0) (by omega)
    (by omega) hk (by rw [hu]; exact hF) hτ hα (by rw [hu]; exact hp1 p ((le_max_left _ _).trans hp)) ho hI
  rw [div_lt_one (by positivity)]
  exact one_lt_pow₀ (by norm_num) (by omega)
end

/-! ## A trajectory without ties -/

theorem exitMarginal_one (m : Nat) {d : ℚ} (hd : 0 ≤ d) : exitMarginal 1 1 m (d : ℝ) = ((m + 1).factorial : ℝ) / (1 + d) ^ (m + 2) := by
  have hd' : (0 : ℝ) ≤ d := by exact_mod_cast hd
  rw [exitMarginal_closed one_pos one_pos hd']
  have e1 : (1 : ℝ) + m + 1 = ((m + 1 : ℕ) : ℝ) + 1 := by push_cast; ring
  rw [e1, Real.Gamma_nat_eq_factorial]
  have e2 : ((m + 1 : ℕ) : ℝ) + 1 = ((m + 2 : ℕ) : ℝ) := by push_cast; ring
  rw [e2, Real.rpow_natCast]
  have e3 : Real.Gamma (1 + 1) = 1 := by
    have := Real.Gamma_nat_eq_factorial 1
    simpa using this
  rw [e3, Real.one_rpow, div_pow, one_pow]
  field_simp

theorem marginal_binary {st : Stats} {m0 m1 : Nat} {d0 d1 : ℚ} (h00 : st.count 0 0 = m0) (h01 : st.count 0 1 = m0) (h10 : st.count 1 0 = m1)
    (h11 : st.count 1 1 = m1) (ht0 : st.time 0 = d0) (ht1 : st.time 1 = d1) (hd0 : 0 ≤ d0) (hd1 : 0 ≤ d1) :
    st.marginal 1 1 2 = (((m0 + 1).factorial : ℝ) / (1 + d0) ^ (m0 + 2)) * (((m1 + 1).factorial : ℝ) / (1 + d1) ^ (m1 + 2)) := by
  have e0 : (Finset.range 2).erase 0 = {1} := by decide
  have e1 : (Finset.range 2).erase 1 = {0} := by decide
  have hr : ∀ m : Nat, rising 1 m / rising 1 m = 1 := by
    intro m
    apply div_self
    unfold rising
    rw [Finset.prod_ne_zero_iff]
    intro k _
    positivity
  unfold Stats.marginal
  rw [Finset.prod_range_succ, Finset.prod_range_one, e0, e1]
  unfold targetMarginal
  simp only [Finset.prod_singleton, Finset.sum_singleton, h00, h01, h10, h11, ht0, ht1]
  rw [exitMarginal_one m0 hd0, exitMarginal_one m1 hd1, show (1 : ℝ) / (((2 : ℕ) : ℝ) - 1) = 1 by norm_num, hr, hr]
  ring

/-- The likelihoods of the four families of `exT2`. -/
theorem exT2_likelihoods :
    likelihood exS2.cleanEdges exT2 2 1 1 "X" ∅ = 1 / 11664 ∧ likelihood exS2.cleanEdges exT2 2 1 1 "X" {"Y"} = 1 / 28800 ∧
    likelihood exS2.cleanEdges exT2 2 1 1 "Y" ∅ = 1 / 2048 ∧ likelihood exS2.cleanEdges exT2 2 1 1 "Y" {"X"} = 1 / 21600 := by
  have o0 : ∀ P, P = ([] : List Label) → ordered exS2.cleanEdges P = [] := by rintro _ rfl; decide
  have oX : ordered exS2.cleanEdges ["X"] = ["X"] := by decide
  have oY : ordered exS2.cleanEdges ["Y"] = ["Y"] := by decide
  have a0 : assignments (([] : List Label).map (fun _ => 2)) = [[]] := by decide
  have aX : assignments (["X"].map (fun _ => 2)) = [[0], [1]] := by decide
  have aY : assignments (["Y"].map (fun _ => 2)) = [[0], [1]] := by decide
  refine ⟨?_, ?_, ?_, ?_⟩
  · unfold likelihood
    rw [o0 _ Finset.toList_empty, a0]
    simp only [List.map_cons, List.map_nil, List.prod_cons, List.prod_nil]
    rw [marginal_binary (m0 := 1) (m1 := 1) (d0 := 5) (d1 := 5) (by decide) (by decide) (by decide) (by decide) (by decide +kernel) (by decide +kernel) (by norm_num) (by norm_num)]
    norm_num [Nat.factorial]
  · unfold likelihood
    rw [Finset.toList_singleton, oY, aY]
    simp only [List.map_cons, List.map_nil, List.prod_cons, List.prod_nil]
    rw [marginal_binary (m0 := 1) (m1 := 0) (d0 := 1) (d1 := 2) (by decide) (by decide) (by decide) (by decide) (by decide +kernel) (by decide +kernel) (by norm_num) (by norm_num),
      marginal_binary (m0 := 0) (m1 := 1) (d0 := 4) (d1 := 3) (by decide) (by decide) (by decide) (by decide) (by decide +kernel) (by decide +kernel) (by norm_num) (by norm_num)]
    norm_num [Nat.factorial]
  · unfold likelihood
    rw [o0 _ Finset.toList_empty, a0]
    simp only [List.map_cons, List.map_nil, List.prod_cons, List.prod_nil]
    rw [marginal_binary (m0 := 1) (m1 := 0) (d0 := 3) (d1 := 7) (by decide) (by decide) (by decide) (by decide) (by decide +kernel) (by decide +kernel) (by norm_num) (by norm_num)]
    norm_num [Nat.factorial]
  · unfold likelihood
    rw [Finset.toList_singleton, oX, aX]
    simp only [List.map_cons, List.map_nil, List.prod_cons, List.prod_nil]
    rw [marginal_binary (m0 := 0) (m1 := 0) (d0 := 1) (d1 := 4) (by decide) (by decide) (by decide) (by decide) (by decide +kernel) (by decide +kernel) (by norm_num) (by norm_num),
      marginal_binary (m0 := 1) (m1 := 0) (d0 := 2) (d1 := 3) (by decide) (by decide) (by decide) (by decide) (by decide +kernel) (by decide +kernel) (by norm_num) (by norm_num)]
    norm_num [Nat.factorial]

/-- The hypothesis of C176 holds of a trajectory of two binary variables. -/
theorem exT2_noTies : NoTies exS2.cleanEdges exT2 1 1 := by
  have key : ∀ n ∈ exS2.cleanEdges.labels, ∀ P Q : Finset Label, (∀ p ∈ P, p ∈ exS2.cleanEdges.labels) → (∀ p ∈ Q, p ∈ exS2.cleanEdges.labels) →
      likelihood exS2.cleanEdges exT2 2 1 1 n P ≠ likelihood exS2.cleanEdges exT2 2 1 1 n Q →
      scoreOfParents exS2.cleanEdges exT2 1 1 n P ≠ scoreOfParents exS2.cleanEdges exT2 1 1 n Q := by
    intro n hn P Q hP hQ hne h
    obtain ⟨v, v1, v2⟩ := score_of_parents_exact exU rfl le_rfl one_pos one_pos hn hP
    obtain ⟨w, w1, w2⟩ := score_of_parents_exact exU rfl le_rfl one_pos one_pos hn hQ
    rw [v1, w1] at h
    cases h
    exact hne (v2.symm.trans w2)
  obtain ⟨x0, x1, y0, y1⟩ := exT2_likelihoods
  intro n hn K K' hne hK hK'
  have hn' : n = "X" ∨ n = "Y" := by simpa [exS2, Structure.cleanEdges] using hn
  have sub : ∀ J : Finset Label, J ⊆ exS2.cleanEdges.labels.toFinset.erase n → ∀ p ∈ J, p ∈ exS2.cleanEdges.labels := by
    intro J hJ p hp
    exact List.mem_toFinset.1 (Finset.mem_erase.1 (hJ hp)).2
  refine key n hn K K' (sub K hK) (sub K' hK') ?_
  rcases hn' with rfl | rfl
  · have e : exS2.cleanEdges.labels.toFinset.erase "X" = {"Y"} := by decide
    rw [e, Finset.subset_singleton_iff] at hK hK'
    rcases hK with rfl | rfl <;> rcases hK' with rfl | rfl
    · exact absurd rfl hne
    · rw [x0, x1]; norm_num
    · rw [x0, x1]; norm_num
    · exact absurd rfl hne
  · have e : exS2.cleanEdges.labels.toFinset.erase "Y" = {"X"} := by decide
    rw [e, Finset.subset_singleton_iff] at hK hK'
    rcases hK with rfl | rfl <;> rcases hK' with rfl | rfl
    · exact absurd rfl hne
    · rw [y0, y1]; norm_num
    · rw [y0, y1]; norm_num
    · exact absurd rfl hne

/-- C175 and C176 on this trajectory: with enough bits the estimate is the exact one, for correctly rounded operations. -/
example : ∃ p₀, ∀ p ≥ p₀, ∀ picks drops : Label → Nat → Nat,
    estimateStructure ((correctMath p).famScoreOn (binRound p) exT2 1 1) [[true, true], [true, true]] (Estimator.new exS2) defaultArgs none picks drops =
      estimateStructure (famScoreOn exT2 1 1) [[true, true], [true, true]] (Estimator.new exS2) defaultArgs none picks drops := by
  obtain ⟨p₀, h⟩ := float_estimate_enough_bits (e := Estimator.new exS2) (rem := [[true, true], [true, true]]) exU le_rfl one_pos one_pos exT2_noTies
    (known := []) ⟨exU.wf, rfl, by decide, by rfl, by simp⟩ 1 0
  refine ⟨max p₀ 1, fun p hp picks drops => ?_⟩
  exact h p ((le_max_left _ _).trans hp) _ exT2.times (correctMath_ok (by have := (le_max_right p₀ 1).trans hp; omega))
    (List.forall₂_same.2 (fun d _ => near_refl d)) _ _ _ _ (by simp)

end PyCTBN
