import Verif.Props.Walk
import Verif.Spec.Draws

/-!
# C187: hill climbing ends in a local optimum with high probability
-/

namespace PyCTBN
open Spec SearchEnv MeasureTheory ProbabilityTheory

/-! ## Independent uniform choices cover every window -/

section
variable {Ω : Type*} [MeasurableSpace Ω] {P : Measure Ω} [IsProbabilityMeasure P] {N : ℕ} {X : ℕ → Ω → ℕ}

theorem Spec.UniformChoices.avoid_one (h : UniformChoices P N X) (hN : 0 < N) (i : ℕ) {r : ℕ} (hr : r < N) :
    P.real {ω | X i ω % N ≠ r} ≤ 1 - 1 / N := by
  have hsub : {ω | X i ω % N ≠ r} ⊆ ⋃ q ∈ (Finset.range N).erase r, {ω | X i ω % N = q} := by
    intro ω hω
    simp only [Set.mem_iUnion, Finset.mem_erase, Finset.mem_range]
    exact ⟨X i ω % N, ⟨hω, Nat.mod_lt _ hN⟩, rfl⟩
  refine (measureReal_mono hsub (measure_ne_top _ _)).trans ((measureReal_biUnion_finset_le _ _).trans ?_)
  rw [Finset.sum_congr rfl (fun q hq => h.uniform i q (Finset.mem_range.1 (Finset.mem_of_mem_erase hq))), Finset.sum_const,
    Finset.card_erase_of_mem (Finset.mem_range.2 hr), Finset.card_range, nsmul_eq_mul]
  have : (N : ℝ) ≠ 0 := by exact_mod_cast hN.ne'
  rw [Nat.cast_sub hN]
  field_simp
  simp

/-- A given element is not chosen in `L` successive choices with probability at most `(1 - 1/N)^L`. -/
theorem Spec.UniformChoices.avoid (h : UniformChoices P N X) (i L : ℕ) {r : ℕ} (hr : r < N) :
    P.real {ω | ∀ j, i ≤ j → j < i + L → X j ω % N ≠ r} ≤ (1 - 1 / N) ^ L := by
  have hN : 0 < N := by omega
  have hset : {ω | ∀ j, i ≤ j → j < i + L → X j ω % N ≠ r} = ⋂ j ∈ Finset.Ico i (i + L), (fun ω => X j ω % N) ⁻¹' {r}ᶜ := by
    ext ω
    simp only [Set.mem_iInter, Finset.mem_Ico, Set.mem_preimage, Set.mem_compl_iff, Set.mem_singleton_iff]
    exact ⟨fun h j hj => h j hj.1 hj.2, fun h j h1 h2 => h j ⟨h1, h2⟩⟩
  have hmul := h.indep.measure_inter_preimage_eq_mul (Finset.Ico i (i + L)) (sets := fun _ => {r}ᶜ) (fun _ _ => MeasurableSet.of_discrete)
  rw [hset, measureReal_def, hmul, ENNReal.toReal_prod]
  refine (Finset.prod_le_prod (fun _ _ => ENNReal.toReal_nonneg) (fun j _ => h.avoid_one hN j hr)).trans ?_
  rw [Finset.prod_const, Nat.card_Ico]
  simp

/-- The probability that within `T` choices some `L` successive ones miss some element. -/
theorem Spec.UniformChoices.windows (h : UniformChoices P N X) {L T : ℕ} (hL : 0 < L) :
    P.real {ω | ¬ ∀ i, i + L ≤ T → ∀ r < N, ∃ j, i ≤ j ∧ j < i + L ∧ X j ω % N = r} ≤ T * (N * (1 - 1 / N) ^ L) := by
  have hsub : {ω | ¬ ∀ i, i + L ≤ T → ∀ r < N, ∃ j, i ≤ j ∧ j < i + L ∧ X j ω % N = r} ⊆
      ⋃ i ∈ Finset.range T, ⋃ r ∈ Finset.range N, {ω | ∀ j, i ≤ j → j < i + L → X j ω % N ≠ r} := by
    intro ω hω
    simp only [Set.mem_setOf_eq, not_forall] at hω
    obtain ⟨i, hi, r, hr, hno⟩ := hω
    simp only [Set.mem_iUnion, Finset.mem_range]
    refine ⟨i, by omega, r, hr, fun j h1 h2 h3 => hno ⟨j, h1, h2, h3⟩⟩
  refine (measureReal_mono hsub (measure_ne_top _ _)).trans ((measureReal_biUnion_finset_le _ _).trans ?_)
  refine (Finset.sum_le_card_nsmul _ _ ((N : ℝ) * (1 - 1 / (N : ℝ)) ^ L) (fun i _ => ?_)).trans (by rw [Finset.card_range, nsmul_eq_mul])
  refine (measureReal_biUnion_finset_le _ _).trans ?_
  refine (Finset.sum_le_card_nsmul _ _ ((1 - 1 / (N : ℝ)) ^ L) (fun r hr => h.avoid i L (Finset.mem_range.1 hr))).trans (by rw [Finset.card_range, nsmul_eq_mul])

end

/-! ## Hill climbing -/

section
variable {S : Type} [LinearOrder S] {E : SearchEnv S} {known : List Edge} {n : Label} {patience : Option ℤ}
  {iterations : Nat} {pick drop : Nat → Nat} {es : List Edge} {log : List S} {f : Finset Label → Py S}

/-- C187 (for given draws).  Without a limit on the parents, hill climbing ends in a local optimum if every `L` successive draws include every candidate, the
patience is unset or at least `L - 1`, and there are at least `L · 2^N` iterations for `N` candidates. -/
theorem hill_local_optimum_of_windows (hE : SearchReady E) (hK : KnownEdges E known) (hf : ScoreOf E n f)
    {N L : Nat} (hN : (candidates E known n).card = N)
    (hwin : ∀ i, i + L ≤ iterations → ∀ r < N, ∃ j, i ≤ j ∧ j < i + L ∧ pick j % N = r)
    (hpat : ∀ m, patience = some m → (L : ℤ) ≤ m + 1) (hit : L * 2 ^ N ≤ iterations)
    (h : E.hill n none iterations patience pick drop = .ok (es, log)) :
    ∃ b, LocalOptimum f none (candidates E known n) (parentsIn es n) b := by
  obtain ⟨b, _, hb, -⟩ := hill_returns_best hE hK hf h
  obtain ⟨l, c, s0, h1, h0, hw, hlC, hdraw, hend⟩ := hill_walk hE hK hf h
  have hlen : l.length ≤ iterations := by
    have := (hill_limits hE hK h).1
    rw [h1] at this
    simpa using this
  have hcl := hw.last.1
  have hnd : (E.struct.labels.filter (fun x => decide (x ∈ candidates E known n))).length = N := by
    rw [← hN, ← List.toFinset_card_of_nodup (hE.wf.nodup.filter _)]
    congr 1
    ext x
    simp only [List.mem_toFinset, List.mem_filter, decide_eq_true_eq, and_iff_right_iff_imp]
    intro hx
    unfold candidates at hx
    exact List.mem_toFinset.1 (Finset.mem_of_mem_erase (Finset.mem_sdiff.1 hx).1)
  have hwin' : ∀ i, i + L ≤ l.length → ∀ p ∈ candidates E known n, p ∈ ((l.map Prod.fst).drop i).take L := by
    intro i hi p hp
    have hpm : p ∈ E.struct.labels.filter (fun x => decide (x ∈ candidates E known n)) := by
      rw [List.mem_filter, decide_eq_true_eq]
      refine ⟨?_, hp⟩
      unfold candidates at hp
      exact List.mem_toFinset.1 (Finset.mem_of_mem_erase (Finset.mem_sdiff.1 hp).1)
    obtain ⟨r, hr, hrp⟩ := List.getElem_of_mem hpm
    obtain ⟨j, j1, j2, j3⟩ := hwin i (hi.trans hlen) r (by rw [← hnd]; exact hr)
    have hj : j < l.length := by omega
    have hd := hdraw j hj
    rw [hN, j3, List.getElem?_eq_getElem hr, hrp] at hd
    have hpj : p = l[j].1 := Option.some.inj hd
    rw [List.mem_iff_getElem]
    refine ⟨j - i, by simp; omega, ?_⟩
    simp only [List.getElem_take, List.getElem_drop, List.getElem_map]
    rw [hpj]
    congr 2
    omega
  -- a window of failures
  have hc : L ≤ c := by
    rcases hend with e | ⟨m, e1, e2⟩
    · by_contra hcL
      obtain ⟨vis, v1, v2, v3⟩ := hw.visits (C := candidates E known n) (N := L) hlC hwin' ⟨_, h0⟩ List.prefix_rfl
      have h3 := v3.resolve_left hcL
      have hcard := visits_card (fun X hX => (v2 X hX).1)
      rw [hN] at hcard
      have hpos : 0 < vis.card := Finset.card_pos.2 ⟨_, v1⟩
      have e1 : vis.card * L = (vis.card - 1) * L + L := by
        obtain ⟨m, hm⟩ := Nat.exists_eq_succ_of_ne_zero hpos.ne'
        rw [hm]; simp [Nat.succ_mul]
      have e2 : vis.card * L ≤ L * 2 ^ N := by rw [mul_comm L]; exact Nat.mul_le_mul_right L hcard
      omega
    · have := hpat m e1
      omega
  refine ⟨b, hw.optimum (fun p hp => ?_) hb⟩
  have hm := List.mem_of_mem_take (hwin' (l.length - L) (by omega) p hp)
  have e : (l.map Prod.fst).drop (l.length - L) = ((l.map Prod.fst).drop (l.length - c)).drop (c - L) := by
    rw [List.drop_drop]; congr 1; omega
  rw [e] at hm
  rw [List.map_drop]
  exact List.mem_of_mem_drop hm

variable {Ω : Type*} [MeasurableSpace Ω] {P : Measure Ω} [IsProbabilityMeasure P]

/-- C187.  The candidates are drawn independently and uniformly.  Without a limit on the parents, with patience unset or at least `L - 1` and at least `L · 2^N`
iterations for `N` candidates, the probability that hill climbing ends where one more candidate edge could be added or removed to improve the score is at most
`iterations · N · (1 - 1/N)^L`. -/
theorem hill_misses_optimum_rarely (hE : SearchReady E) (hK : KnownEdges E known) (hf : ScoreOf E n f)
    {N L : Nat} (hN : (candidates E known n).card = N) (hL : 0 < L)
    (hpat : ∀ m, patience = some m → (L : ℤ) ≤ m + 1) (hit : L * 2 ^ N ≤ iterations) {X : ℕ → Ω → ℕ} (hX : UniformChoices P N X)
    (drop : Ω → ℕ → ℕ) :
    P.real {ω | ∃ es log, E.hill n none iterations patience (fun i => X i ω) (drop ω) = .ok (es, log) ∧
      ¬ ∃ b, LocalOptimum f none (candidates E known n) (parentsIn es n) b} ≤ iterations * (N * (1 - 1 / N) ^ L) := by
  refine (measureReal_mono (fun ω hω => ?_) (measure_ne_top _ _)).trans (hX.windows (T := iterations) hL)
  obtain ⟨es, log, h, hno⟩ := hω
  intro hwin
  exact hno (hill_local_optimum_of_windows hE hK hf hN hwin hpat hit h)

end

end PyCTBN
