import Verif.Lemmas.FloatEst

/-! # C157-C160: parameter estimation in floating point -/

namespace PyCTBN
open Spec

variable {u : ℚ}

theorem near_symm {K : Type} [Field K] [LinearOrder K] [IsStrictOrderedRing K] {u : K} (h0 : 0 ≤ u) (h1 : u < 1) {m : Nat} {x y : K} (h : Near u m x y) : Near u m y x := by
  obtain ⟨θ, a, b, rfl⟩ := h
  have p := pow_le_one_sub h0 h1 m
  have hθ : 0 < θ := p.1.trans_le a
  refine ⟨θ⁻¹, ?_, inv_anti₀ p.1 a, by field_simp⟩
  rw [le_inv_comm₀ p.1 hθ]; exact b

/-! ## Counts are small -/

theorem sum_filter_le (rows : List (List ℤ)) (Q : List ℤ → Bool) (f : List ℤ → ℤ) (base c : Nat) :
    ((List.range c).map (fun y => (rows.filter (fun r => Q r && decide (f r = ((base + y : Nat) : ℤ)))).length)).sum ≤ rows.length := by
  have hs : ∀ F : Nat → Nat, ((List.range c).map F).sum = ∑ y ∈ Finset.range c, F y := fun F => rfl
  rw [hs]
  induction rows with
  | nil => simp
  | cons r rows ih =>
    have hcons : ∀ y, ((r :: rows).filter (fun r => Q r && decide (f r = ((base + y : Nat) : ℤ)))).length
        = (Q r && decide (f r = ((base + y : Nat) : ℤ))).toNat + (rows.filter (fun r => Q r && decide (f r = ((base + y : Nat) : ℤ)))).length := by
      intro y
      rw [List.filter_cons]
      cases (Q r && decide (f r = ((base + y : Nat) : ℤ)))
      · simp
      · simp; omega
    rw [Finset.sum_congr rfl (fun y _ => hcons y), Finset.sum_add_distrib, List.length_cons]
    have h1 : ∑ y ∈ Finset.range c, (Q r && decide (f r = ((base + y : Nat) : ℤ))).toNat ≤ 1 := by
      by_cases hex : ∃ y ∈ Finset.range c, (Q r && decide (f r = ((base + y : Nat) : ℤ))) = true
      · obtain ⟨y, hy, h⟩ := hex
        rw [Finset.sum_eq_single_of_mem y hy]
        · rw [h]; rfl
        · intro z _ hne
          simp only [Bool.and_eq_true, decide_eq_true_eq] at h
          have : ¬ (f r = ((base + z : Nat) : ℤ)) := by rw [h.2]; push_cast; omega
          rw [decide_eq_false this, Bool.and_false]; rfl
      · rw [Finset.sum_eq_zero]
        · omega
        · intro y hy
          cases h : (Q r && decide (f r = ((base + y : Nat) : ℤ)))
          · rfl
          · exact absurd ⟨y, hy, h⟩ hex
    omega

/-- No count exceeds the number of rows. -/
theorem counts_le {i : Nat} {rows : List (List ℤ)} {cols struct : List Nat} {k c : Nat} (hk : 0 < k) (hc : 0 < c)
    (hlast : pyGet struct (struct.length - 1) = .ok (k * c * c)) {M : List (List (List Nat))}
    (h : computeStateTransitions i rows cols struct k c = .ok M) : ∀ m ∈ M, ∀ row ∈ m, ∀ e ∈ row, e ≤ rows.length := by
  obtain ⟨-, rfl⟩ := (transitions_returns_iff hk hc hlast M).1 h
  intro m hm row hrow e he
  obtain ⟨r, -, rfl⟩ := List.mem_map.1 hm
  obtain ⟨x, -, rfl⟩ := List.mem_map.1 hrow
  obtain ⟨x', -, rfl⟩ := List.mem_map.1 he
  split
  · refine le_trans ?_ (sum_filter_le rows (fun r => decide (0 ≤ okVal (ncode i r))) (fun r => okVal (rowIndex cols struct r)) ((r * c + x) * c) c)
    apply List.sum_le_sum
    intro y _
    split
    · exact Nat.zero_le _
    · exact le_rfl
  · exact List.length_filter_le ..

/-! ## One CIM -/

theorem coeff_near (h0 : 0 ≤ u) (h1 : u < 1) {rnd : ℚ → ℚ} (ha : Accurate u rnd) {N : Nat} (hex : ExactInts N rnd) {m : Nat}
    {T' T : ℚ} (hT : Near u m T' T) (hT0 : 0 ≤ T) (e : Nat) (he : e < N) (b : Prop) [Decidable b] :
    Near u (m + 2) (rnd (rnd ((if b then rnd (-(rnd (e : ℚ))) else rnd (e : ℚ)) + 1) / rnd (T' + 1)))
      (((if b then -(e : ℚ) else (e : ℚ)) + 1) / (T + 1)) := by
  have e1 : rnd (e : ℚ) = e := by
    have := hex (e : ℤ) (by simpa using he.le)
    simpa using this
  have e2 : rnd (-(e : ℚ)) = -e := by
    have := hex (-(e : ℤ)) (by simpa using he.le)
    push_cast at this; simpa using this
  have e3 : rnd ((if b then -(e : ℚ) else (e : ℚ)) + 1) = (if b then -(e : ℚ) else (e : ℚ)) + 1 := by
    split
    · have := hex (-(e : ℤ) + 1) (by omega)
      push_cast at this; simpa using this
    · have := hex ((e : ℤ) + 1) (by omega)
      push_cast at this; simpa using this
  rw [e1, e2, e3]
  have hd : Near u (1 + m) (rnd (T' + 1)) (T + 1) :=
    near_trans h0 h1 (near_rnd h0 h1 ha _) (near_add h0 h1 hT0 (by norm_num) hT (near_mono h0 h1 (Nat.zero_le m) (near_refl 1)))
  have := near_trans h0 h1 (near_rnd h0 h1 ha _) (near_div h0 h1 (near_refl ((if b then -(e : ℚ) else (e : ℚ)) + 1)) hd)
  rwa [show 1 + (0 + (1 + m)) = m + 2 by omega] at this

theorem forall₂_map_same {α β γ : Type _} {R : β → γ → Prop} {f : α → β} {g : α → γ} {l : List α} (h : ∀ a ∈ l, R (f a) (g a)) :
    List.Forall₂ R (l.map f) (l.map g) := by
  rw [List.forall₂_map_left_iff, List.forall₂_map_right_iff, List.forall₂_same]
  exact h

theorem forall₂_getD {R : ℚ → ℚ → Prop} (hR : R 0 0) {l l' : List ℚ} (h : List.Forall₂ R l l') (i : Nat) : R (l[i]?.getD 0) (l'[i]?.getD 0) := by
  induction h generalizing i with
  | nil => simpa using hR
  | cons h _ ih =>
    cases i with
    | zero => simpa using h
    | succ i => simpa using ih i

theorem build_near (h0 : 0 ≤ u) (h1 : u < 1) {rnd : ℚ → ℚ} (ha : Accurate u rnd) {N : Nat} (hex : ExactInts N rnd) {m : Nat}
    {T' T : List ℚ} (hT : List.Forall₂ (fun a b => Near u m a b ∧ 0 ≤ b) T' T) {M : List (List Nat)} (hM : ∀ row ∈ M, ∀ e ∈ row, e < N) :
    CimNear u m (Cim.buildF rnd T' M) (Cim.build T M) := by
  refine ⟨rfl, hT.imp (fun _ _ h => h.1), ?_⟩
  show List.Forall₂ _ (cimCoefficientsF rnd T' M) (cimCoefficients T M)
  unfold cimCoefficientsF cimCoefficients
  apply forall₂_map_same
  rintro ⟨row, i⟩ hri
  apply forall₂_map_same
  rintro ⟨e, j⟩ hej
  have hrow := (List.mem_zipIdx hri).2.2
  have he := (List.mem_zipIdx hej).2.2
  have hb := forall₂_getD (R := fun a b => Near u m a b ∧ 0 ≤ b) ⟨near_mono h0 h1 (Nat.zero_le m) (near_refl 0), le_rfl⟩ hT i
  refine coeff_near h0 h1 ha hex hb.1 hb.2 e ?_ (i = j)
  apply hM row
  · rw [hrow]; exact List.getElem_mem _
  · rw [he]; exact List.getElem_mem _

theorem zipWith_near (h0 : 0 ≤ u) (h1 : u < 1) {rnd : ℚ → ℚ} (ha : Accurate u rnd) {N : Nat} (hex : ExactInts N rnd) {m : Nat}
    {T' T : List (List ℚ)} (hT : List.Forall₂ (List.Forall₂ (fun a b => Near u m a b ∧ 0 ≤ b)) T' T) {M : List (List (List Nat))}
    (hM : ∀ x ∈ M, ∀ row ∈ x, ∀ e ∈ row, e < N) :
    List.Forall₂ (CimNear u m) (List.zipWith (Cim.buildF rnd) T' M) (List.zipWith Cim.build T M) := by
  induction hT generalizing M with
  | nil => simp
  | cons h _ ih =>
    cases M with
    | nil => simp
    | cons x M =>
      simp only [List.zipWith_cons_cons]
      exact .cons (build_near h0 h1 ha hex h (hM x (by simp))) (ih (fun y hy => hM y (by simp [hy])))

/-! ## Row indexes of well-formed data -/

theorem time_indexes_exact {rnd : ℚ → ℚ} {N : Nat} (hex : ExactInts N rnd) {s : Structure} (hw : WFStructure s) {t : Trajectory} (ht : DataOK s t)
    {n : Label} (hn : n ∈ s.labels) {ls : List Label} (hls : ∀ l ∈ ls, l ∈ s.labels) {c i : Nat} (hc : 0 < c) (hcn : s.getStatesNumber n = .ok c)
    (hi : s.getNodeIndx n = .ok i) {ps is : List Nat} (hps : ps.map Except.ok = ls.map s.getStatesNumber)
    (his : is.map Except.ok = ls.map s.getNodeIndx) (hN : c * c * (c + topParentSlot ps) ≤ N) :
    t.trajectory.mapM (rowIndexF rnd (i :: is) (buildTimeScalarIndexing c ps)) = t.trajectory.mapM (rowIndex (i :: is) (buildTimeScalarIndexing c ps)) := by
  apply mapM_congr_py
  intro row hrow
  obtain ⟨r, hr, rfl⟩ := List.mem_map.1 hrow
  have hx := (natState_spec hw ht hr hn hcn).2
  have hu := parentSlot_le (inRange_states hw ht hr hls hps)
  refine rowIndexF_eq hex hc ?_ (select_time hw ht hn hls hcn hi his hr) ?_ (cumprod_dvd c ps) ?_
  · refine le_trans ?_ hN
    calc c = c * 1 * 1 := by ring
      _ ≤ c * c * (c + topParentSlot ps) := Nat.mul_le_mul (Nat.mul_le_mul_left _ hc) (by omega)
  · rw [pyGet_ok]; simp [buildTimeScalarIndexing, cumprod, cumprodFrom]
  · show (List.zipWith (fun v s => v * s) (natState s r n :: ls.map (natState s r)) (cumprodFrom 1 (c :: ps))).sum ≤ N
    rw [zipWith_cumprod_nat, strideSum_eq_slot, Nat.one_mul]
    refine le_trans ?_ hN
    show c * (natState s r n + parentSlot ps (ls.map (natState s r))) ≤ _
    rw [Nat.mul_assoc]
    apply Nat.mul_le_mul_left
    calc natState s r n + parentSlot ps (ls.map (natState s r)) ≤ 1 * (c + topParentSlot ps) := by omega
      _ ≤ c * (c + topParentSlot ps) := Nat.mul_le_mul_right _ hc

theorem transitionsF_eq {rnd : ℚ → ℚ} {N : Nat} (hex : ExactInts N rnd) {s : Structure} (hw : WFStructure s) {t : Trajectory} (ht : DataOK s t)
    {n : Label} (hn : n ∈ s.labels) {ls : List Label} (hls : ∀ l ∈ ls, l ∈ s.labels) {c i : Nat} (hc : 0 < c) (hcn : s.getStatesNumber n = .ok c)
    (hi : s.getNodeIndx n = .ok i) {ps is : List Nat} (hps : ps.map Except.ok = ls.map s.getStatesNumber)
    (his : is.map Except.ok = ls.map s.getNodeIndx) (hN : c * c * (c + topParentSlot ps) ≤ N) (k d : Nat) :
    computeStateTransitionsF rnd i t.rows ((i + s.total) :: i :: is) (buildTransitionScalarIndexing c ps) k d
      = computeStateTransitions i t.rows ((i + s.total) :: i :: is) (buildTransitionScalarIndexing c ps) k d := by
  unfold computeStateTransitionsF computeStateTransitions
  cases hnx : t.rows.mapM (fun row => pyGet row (row.length / 2 + i)) with
  | error e => rfl
  | ok nexts =>
    simp only [Except.bind_ok']
    have hnx' := (mapM_eq_ok_iff.1 hnx).2
    subst hnx'
    have : ∀ row ∈ ((t.rows.zip (t.rows.map (fun row => okVal (pyGet row (row.length / 2 + i))))).filter (fun p => decide (0 ≤ p.2))).map Prod.fst,
        rowIndexF rnd ((i + s.total) :: i :: is) (buildTransitionScalarIndexing c ps) row
          = rowIndex ((i + s.total) :: i :: is) (buildTransitionScalarIndexing c ps) row := by
      intro r hr
      rw [zip_map_filter_fst t.rows (fun row => okVal (pyGet row (row.length / 2 + i))) (fun z => decide (0 ≤ z))] at hr
      obtain ⟨hr, hge⟩ := List.mem_filter.1 hr
      rcases ht.nxt r hr n hn c hcn with hx | ⟨y, hy, hyc⟩
      · have hnc : ncode i r = .ok (-1) := by
          rw [ncode, pyGet_ok, ht.width r hr, Nat.mul_div_cancel_left _ (by omega), ← nextOf_eq hi]
          exact hx
        have hge' : decide (0 ≤ okVal (ncode i r)) = true := hge
        rw [hnc] at hge'
        exact absurd hge' (by decide)
      · have hx := (natState_spec hw ht hr hn hcn).2
        have hu := parentSlot_le (inRange_states hw ht hr hls hps)
        refine rowIndexF_eq hex hc ?_ (select_trans hw ht hn hls hi his hr hy) ?_ (cumprod_dvd c (c :: ps)) ?_
        · refine le_trans ?_ hN
          calc c = c * 1 * 1 := by ring
            _ ≤ c * c * (c + topParentSlot ps) := Nat.mul_le_mul (Nat.mul_le_mul_left _ hc) (by omega)
        · rw [pyGet_ok]; simp [buildTransitionScalarIndexing, cumprod, cumprodFrom]
        · show (List.zipWith (fun v s => v * s) (y :: natState s r n :: ls.map (natState s r)) (cumprodFrom 1 (c :: c :: ps))).sum ≤ N
          rw [zipWith_cumprod_nat, strideSum_eq_slot, Nat.one_mul]
          refine le_trans ?_ hN
          show c * (y + c * (natState s r n + parentSlot ps (ls.map (natState s r)))) ≤ _
          rw [Nat.mul_assoc]
          apply Nat.mul_le_mul_left
          have h3 : natState s r n + parentSlot ps (ls.map (natState s r)) + 1 ≤ c + topParentSlot ps := by omega
          calc y + c * (natState s r n + parentSlot ps (ls.map (natState s r)))
              ≤ c * (natState s r n + parentSlot ps (ls.map (natState s r)) + 1) := by
                have : ∀ q, y + c * q ≤ c * (q + 1) := fun q => by rw [Nat.mul_add c q 1]; omega
                exact this _
            _ ≤ c * (c + topParentSlot ps) := Nat.mul_le_mul_left _ h3
    rw [mapM_congr_py this]

/-- Both estimations from the same table of durations per entry. -/
theorem estimate_from_bins {rnd : ℚ → ℚ} {N : Nat} (hex : ExactInts N rnd) {s : Structure} {g : NetworkGraph} (hg : Reach s g) (hpos : PosCards s)
    {n : Label} (hn : n ∈ s.labels) {c : Nat} (hcn : s.getStatesNumber n = .ok c) {ps : List Nat}
    (hps : ps.map Except.ok = (parentsOf g n).map s.getStatesNumber) (hN : c * c * (c + topParentSlot ps) ≤ N)
    {α : Type} (f f' : α → ℚ) (ws : List α) (t : Trajectory) (ht : DataOK s t) (hws : ws.map f = t.times) :
    (∃ e, ParamsEst.estimate t g n = .error e ∧ ParamsEst.estimateF rnd { t with times := ws.map f' } g n = .error e) ∨
    ∃ (B : List (List (List α))) (M : List (List (List Nat))), (∀ r ∈ B, ∀ l ∈ r, l.Sublist ws) ∧
      (∀ m ∈ M, ∀ row ∈ m, ∀ e ∈ row, e ≤ t.rows.length) ∧
      ParamsEst.estimate t g n = .ok ⟨n, ps, c, buildPCombs ps, false,
        List.zipWith Cim.build (B.map (List.map (fun l => (l.map f).sum))) M⟩ ∧
      ParamsEst.estimateF rnd { t with times := ws.map f' } g n = .ok ⟨n, ps, c, buildPCombs ps, false,
        List.zipWith (Cim.buildF rnd) (B.map (List.map (fun l => fsum rnd (l.map f')))) M⟩ := by
  obtain ⟨hI, hs⟩ := hg.inv
  have hw : WFStructure s := hs ▸ hI.cs.toWFStructure
  have hval : ∀ l ∈ s.labels, ∀ v, s.getStatesNumber l = .ok v → 0 < v := by
    intro l hl v hv
    obtain ⟨w, hw', e⟩ := getStatesNumber_mem hw hl
    rw [hv] at e; cases e; exact hpos v hw'
  have hc : 0 < c := hval n hn c hcn
  have hls : ∀ x ∈ parentsOf g n, x ∈ s.labels := fun x hx => hs ▸ mem_parentsOf hx
  obtain ⟨c', i, ps', is, e1, e2, e3, e4, e5⟩ := estimate_unfold hg hn
  obtain ⟨c'', i', ps'', is', d1, d2, d3, d4, d5⟩ := estimateF_unfold hg hn
  rw [hcn] at e1 d1; cases e1; cases d1
  rw [e2] at d2; cases d2
  have hinj : ∀ {a b : List Nat}, a.map (Except.ok (ε := PyErr)) = b.map Except.ok → a = b :=
    fun h => (List.map_injective_iff.2 (fun _ _ h => Except.ok.inj h)) h
  have h1 : ps' = ps := hinj (e3.trans hps.symm)
  have h2 : ps'' = ps := hinj (d3.trans hps.symm)
  have h3 : is' = is := hinj (d4.trans e4.symm)
  subst h1; subst h2; subst h3
  have hpp : ∀ p ∈ ps'', 0 < p := by
    intro p hp
    have : Except.ok p ∈ (parentsOf g n).map s.getStatesNumber := by rw [← e3]; exact List.mem_map_of_mem hp
    obtain ⟨l, hl, hlv⟩ := List.mem_map.1 this
    exact hval l (hls l hl) p hlv
  have hk : 0 < ps''.prod := prod_pos_of_pos hpp
  rw [e5 t, d5 rnd]
  have hidx := time_indexes_exact hex hw ht hn hls hc hcn e2 hps e4 hN
  have htr := transitionsF_eq hex hw ht hn hls hc hcn e2 hps e4 hN ps''.prod c
  have hT := resTime_bins f ws t.trajectory (i :: is') (buildTimeScalarIndexing c ps'') ps''.prod c
  have hTF := resTimeF_bins rnd f' ws t.trajectory (i :: is') (buildTimeScalarIndexing c ps'') ps''.prod c hidx
  rw [hws] at hT
  dsimp only [Trajectory.trajectory] at hT hTF ⊢
  rw [hT, hTF, htr]
  cases hB : timeBins ws (t.rows.map (fun r => r.take (t.origCols - 1))) (i :: is') (buildTimeScalarIndexing c ps'') ps''.prod c with
  | error e => exact .inl ⟨e, rfl, rfl⟩
  | ok B =>
    simp only [Except.map, Except.bind_ok']
    cases hM : computeStateTransitions i t.rows ((i + s.total) :: i :: is') (buildTransitionScalarIndexing c ps'') ps''.prod c with
    | error e => exact .inl ⟨e, rfl, rfl⟩
    | ok M =>
      simp only [Except.bind_ok']
      exact .inr ⟨B, M, timeBins_sub hB, counts_le hk hc (transIdx_last c ps'') hM, rfl, rfl⟩

/-- **C157, C158.**  Estimation in floating point with relative error `u` per operation, on durations that are themselves the true ones up to `k` relative errors
(`k = 0`: given as floats; `k = 1`: differences of time stamps): it raises what exact estimation raises, otherwise it delivers the same
assignments and counts, residence times up to `k + m` relative errors and coefficients up to `k + m + 2`, where `m` is the number of data rows. -/
theorem float_estimation_near (s : Structure) (g : NetworkGraph) (hg : Reach s g) (hpos : PosCards s) (n : Label)
    (hn : n ∈ s.labels) (c : Nat) (hcn : s.getStatesNumber n = .ok c) (ps : List Nat)
    (hps : ps.map Except.ok = (parentsOf g n).map s.getStatesNumber) (t : Trajectory) (ht : DataOK s t) (htime : ∀ d ∈ t.times, 0 ≤ d)
    (rnd : ℚ → ℚ) (u : ℚ) (h0 : 0 ≤ u) (h1 : u < 1) (ha : Accurate u rnd) (N : Nat) (hex : ExactInts N rnd)
    (hN : c * c * (c + topParentSlot ps) ≤ N) (hrows : t.rows.length < N) (k : Nat) (times' : List ℚ)
    (hk : List.Forall₂ (Near u k) times' t.times) :
    (∃ e, ParamsEst.estimate t g n = .error e ∧ ParamsEst.estimateF rnd { t with times := times' } g n = .error e) ∨
    ∃ a b, ParamsEst.estimate t g n = .ok a ∧ ParamsEst.estimateF rnd { t with times := times' } g n = .ok b ∧
      b.pCombs = a.pCombs ∧ List.Forall₂ (CimNear u (k + t.rows.length)) b.cims a.cims := by
  have hlen := hk.length_eq
  have hz1 : (times'.zip t.times).map Prod.fst = times' := List.map_fst_zip (by omega)
  have hz2 : (times'.zip t.times).map Prod.snd = t.times := List.map_snd_zip (by omega)
  have hzip : ∀ p ∈ times'.zip t.times, Near u k p.1 p.2 ∧ 0 ≤ p.2 := by
    intro p hp
    exact ⟨List.forall₂_zip hk hp, htime _ (List.of_mem_zip hp).2⟩
  have := estimate_from_bins hex hg hpos hn hcn hps hN (Prod.snd : ℚ × ℚ → ℚ) Prod.fst (times'.zip t.times) t ht hz2
  rw [hz1] at this
  rcases this with ⟨e, a, b⟩ | ⟨B, M, hB, hM, a, b⟩
  · exact .inl ⟨e, a, b⟩
  · refine .inr ⟨_, _, a, b, rfl, ?_⟩
    refine zipWith_near h0 h1 ha hex ?_ (fun x hx row hrow e he => (hM x hx row hrow e he).trans_lt hrows)
    apply forall₂_map_same
    intro r hr
    apply forall₂_map_same
    intro l hl
    have hsub := hB r hr l hl
    have hmem : ∀ p ∈ l, Near u k p.1 p.2 ∧ 0 ≤ p.2 := fun p hp => hzip p (hsub.subset hp)
    constructor
    · have := fsum_near h0 h1 ha (k := k) (ws := l.map Prod.fst) (ws' := l.map Prod.snd) (forall₂_map_same hmem)
      refine near_mono h0 h1 ?_ this
      have := hsub.length_le
      have h5 := ht.len
      rw [List.length_map]
      rw [List.length_zip] at this
      omega
    · apply List.sum_nonneg
      intro x hx
      obtain ⟨p, hp, rfl⟩ := List.mem_map.1 hx
      exact (hmem p hp).2

end PyCTBN
