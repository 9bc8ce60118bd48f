import Verif.Props.ReturnExact
import Verif.Props.ScoreEst

/-!
# C122: for exactly which cardinalities the FamScore is the log marginal likelihood
-/

namespace PyCTBN
open Spec FamScore MeasureTheory SearchEnv

/-! ## Slots collide for every other cardinality -/

theorem zeros_slot (ps : List Nat) : parentSlot ps (ps.map (fun _ => 0)) = 0 := by
  induction ps with
  | nil => rfl
  | cons p ps ih => simp only [List.map_cons, parentSlot, ih, Nat.add_zero, Nat.mul_zero]

theorem zeros_inRangeAssign {ps : List Nat} (hpos : ∀ p ∈ ps, 0 < p) : InRangeAssign ps (ps.map (fun _ => 0)) := by
  induction ps with
  | nil => exact List.Forall₂.nil
  | cons p ps ih => exact List.Forall₂.cons (hpos p (by simp)) (ih (fun q hq => hpos q (by simp [hq])))

/-- If some parent has neither one nor `c` states, either some slot is out of bounds or two different states share a slot. -/
theorem slots_collide {c : Nat} (hc : 0 < c) (ps : List Nat) (hpos : ∀ p ∈ ps, 0 < p) (hbad : ∃ p ∈ ps, p ≠ 1 ∧ p ≠ c) (P : Nat) (hP : 0 < P)
    (hin : (c * P - 1) + P * topParentSlot ps < c * P * ps.prod) :
    ∃ y y' u u', y < c * P ∧ y' < c * P ∧ InRangeAssign ps u ∧ InRangeAssign ps u' ∧ (y, u) ≠ (y', u') ∧
      y + P * parentSlot ps u = y' + P * parentSlot ps u' := by
  induction ps generalizing P with
  | nil => simp at hbad
  | cons p ps ih =>
    have hp := hpos p (by simp)
    have hpos' : ∀ q ∈ ps, 0 < q := fun q hq => hpos q (by simp [hq])
    by_cases h1 : p = 1
    · subst h1
      have hbad' : ∃ p ∈ ps, p ≠ 1 ∧ p ≠ c := by
        obtain ⟨q, hq, hq1, hq2⟩ := hbad
        rcases List.mem_cons.1 hq with rfl | hq
        · exact absurd rfl hq1
        · exact ⟨q, hq, hq1, hq2⟩
      obtain ⟨y, y', u, u', a1, a2, a3, a4, a5, a6⟩ := ih hpos' hbad' P hP (by simpa [topParentSlot] using hin)
      refine ⟨y, y', 0 :: u, 0 :: u', a1, a2, List.Forall₂.cons (by omega) a3, List.Forall₂.cons (by omega) a4, ?_, by simpa [parentSlot] using a6⟩
      intro e
      simp only [Prod.mk.injEq, List.cons.injEq, true_and] at e
      exact a5 (by rw [e.1, e.2])
    · by_cases h2 : p = c
      · subst h2
        have hbad' : ∃ q ∈ ps, q ≠ 1 ∧ q ≠ p := by
          obtain ⟨q, hq, hq1, hq2⟩ := hbad
          rcases List.mem_cons.1 hq with rfl | hq
          · exact absurd rfl hq2
          · exact ⟨q, hq, hq1, hq2⟩
        have hpP : 0 < p * P := Nat.mul_pos hp hP
        obtain ⟨y, y', u, u', a1, a2, a3, a4, a5, a6⟩ := ih hpos' hbad' (p * P) hpP (by
          simp only [topParentSlot, List.prod_cons] at hin
          have e1 : p * (p * P) - 1 = (p * P - 1) + p * P * (p - 1) := by
            obtain ⟨m, rfl⟩ : ∃ m, p = m + 1 := ⟨p - 1, by omega⟩
            simp only [Nat.add_sub_cancel]
            have : (m + 1) * ((m + 1) * P) = (m + 1) * P + (m + 1) * P * m := by ring
            omega
          rw [e1]
          calc p * P - 1 + p * P * (p - 1) + p * P * topParentSlot ps = p * P - 1 + P * (p * (p - 1 + topParentSlot ps)) := by ring
            _ < p * P * (p * ps.prod) := hin
            _ = p * (p * P) * ps.prod := by ring)
        refine ⟨y % (p * P), y' % (p * P), (y / (p * P)) :: u, (y' / (p * P)) :: u', Nat.mod_lt _ hpP, Nat.mod_lt _ hpP,
          List.Forall₂.cons ?_ a3, List.Forall₂.cons ?_ a4, ?_, ?_⟩
        · rw [Nat.div_lt_iff_lt_mul hpP]; exact a1
        · rw [Nat.div_lt_iff_lt_mul hpP]; exact a2
        · intro e
          simp only [Prod.mk.injEq, List.cons.injEq] at e
          apply a5
          rw [e.2.2, ← Nat.mod_add_div y (p * P), ← Nat.mod_add_div y' (p * P), e.1, e.2.1]
        · simp only [parentSlot]
          have e1 := Nat.mod_add_div y (p * P)
          have e2 := Nat.mod_add_div y' (p * P)
          calc y % (p * P) + P * (p * (y / (p * P) + parentSlot ps u)) = (y % (p * P) + p * P * (y / (p * P))) + p * P * parentSlot ps u := by ring
            _ = (y' % (p * P) + p * P * (y' / (p * P))) + p * P * parentSlot ps u' := by rw [e1, e2, a6]
            _ = _ := by ring
      · rcases Nat.lt_or_gt_of_ne h2 with hlt | hgt
        · have hz := zeros_inRangeAssign hpos'
          refine ⟨P * p, 0, 0 :: ps.map (fun _ => 0), 1 :: ps.map (fun _ => 0), ?_, Nat.mul_pos hc hP,
            List.Forall₂.cons hp hz, List.Forall₂.cons (by omega) hz, ?_, ?_⟩
          · rw [Nat.mul_comm c]; exact Nat.mul_lt_mul_of_pos_left hlt hP
          · intro e; simp at e
          · simp only [parentSlot, zeros_slot]; ring
        · -- pigeonhole: slot `c * P` is never used
          by_contra hno
          push Not at hno
          set Q := (p :: ps).prod with hQ
          let f : Nat × Nat → Nat := fun z => z.1 + P * parentSlot (p :: ps) (digits (p :: ps) z.2)
          have hmaps : ∀ z ∈ Finset.range (c * P) ×ˢ Finset.range Q, f z ∈ (Finset.range (c * P * Q)).erase (c * P) := by
            intro z hz
            obtain ⟨z1, z2⟩ := Finset.mem_product.1 hz
            have z1 := Finset.mem_range.1 z1
            have z2 := Finset.mem_range.1 z2
            have hd := (digits_inRange (ps := p :: ps) z2).1
            have hle := Nat.mul_le_mul_left P (parentSlot_le hd)
            rw [Finset.mem_erase, Finset.mem_range]
            refine ⟨?_, by simp only [f]; omega⟩
            simp only [f, digits, parentSlot]
            intro e
            rcases Nat.eq_zero_or_pos (z.2 % p + parentSlot ps (digits ps (z.2 / p))) with h0 | h0
            · rw [h0] at e; simp at e; omega
            · have : P * p * 1 ≤ P * p * (z.2 % p + parentSlot ps (digits ps (z.2 / p))) := Nat.mul_le_mul_left _ h0
              rw [Nat.mul_one] at this
              have h3 : c * P < P * p := by rw [Nat.mul_comm c]; exact Nat.mul_lt_mul_of_pos_left hgt hP
              rw [← Nat.mul_assoc] at e
              omega
          have hcard : ((Finset.range (c * P * Q)).erase (c * P)).card < (Finset.range (c * P) ×ˢ Finset.range Q).card := by
            rw [Finset.card_erase_of_mem, Finset.card_product, Finset.card_range, Finset.card_range, Finset.card_range]
            · have : 0 < c * P * Q := Nat.mul_pos (Nat.mul_pos hc hP) (prod_pos_of_pos hpos)
              omega
            · rw [Finset.mem_range]
              have h1 : 1 < Q := by
                rw [hQ, List.prod_cons]
                have := prod_pos_of_pos hpos'
                calc 1 < p := by omega
                  _ = p * 1 := by ring
                  _ ≤ p * ps.prod := Nat.mul_le_mul_left _ this
              calc c * P = c * P * 1 := by ring
                _ < c * P * Q := Nat.mul_lt_mul_of_pos_left h1 (Nat.mul_pos hc hP)
          obtain ⟨z, hz, z', hz', hne, he⟩ := Finset.exists_ne_map_eq_of_card_lt_of_maps_to hcard hmaps
          obtain ⟨z1, z2⟩ := Finset.mem_product.1 hz
          obtain ⟨z1', z2'⟩ := Finset.mem_product.1 hz'
          have d1 := digits_inRange (ps := p :: ps) (Finset.mem_range.1 z2)
          have d2 := digits_inRange (ps := p :: ps) (Finset.mem_range.1 z2')
          refine hno z.1 z'.1 _ _ (Finset.mem_range.1 z1) (Finset.mem_range.1 z1') d1.1 d2.1 ?_ he
          intro e
          simp only [Prod.mk.injEq] at e
          apply hne
          refine Prod.ext e.1 ?_
          rw [← d1.2, ← d2.2, e.2]

/-! ## The likelihood of rows without a successor -/

theorem exitMarginal_zero {τ α : ℝ} (hτ : 0 < τ) (hα : 0 < α) {T : ℝ} (hT : 0 ≤ T) : exitMarginal τ α 0 T = (τ / (τ + T)) ^ (α + 1) := by
  have g1 : 0 < Real.Gamma (α + 1) := Real.Gamma_pos_of_pos (by positivity)
  have h2 : (0 : ℝ) < τ + T := by positivity
  rw [exitMarginal_closed hτ hα hT, Nat.cast_zero, add_zero, Real.div_rpow hτ.le h2.le, Real.div_rpow zero_le_one h2.le, Real.one_rpow]
  field_simp

theorem marginal_no_moves {τ α : ℝ} (hτ : 0 < τ) (hα : 0 < α) {c : Nat} {st : Stats} (h0 : ∀ x y, x < c → y < c → st.count x y = 0)
    (ht : ∀ x, x < c → 0 ≤ st.time x) :
    st.marginal τ α c = ∏ x ∈ Finset.range c, (τ / (τ + (st.time x : ℝ))) ^ (α + 1) := by
  unfold Stats.marginal
  apply Finset.prod_congr rfl
  intro x hx
  have hx := Finset.mem_range.1 hx
  have h1 : (0 : ℝ) ≤ (st.time x : ℝ) := by exact_mod_cast ht x hx
  have h2 : targetMarginal α (α / (c - 1)) ((Finset.range c).erase x) (st.count x) = 1 := by
    unfold targetMarginal
    have e1 : ∀ y ∈ (Finset.range c).erase x, st.count x y = 0 := fun y hy => h0 x y hx (Finset.mem_range.1 (Finset.mem_erase.1 hy).2)
    rw [Finset.sum_eq_zero e1, Finset.prod_eq_one (fun y hy => by rw [e1 y hy]; simp [rising])]
    simp [rising]
  rw [h0 x x hx hx, h2, mul_one, exitMarginal_zero hτ hα h1]

theorem two_cells_ne {τ α : ℝ} (hτ : 0 < τ) (hα : 0 < α) :
    (τ / (τ + 2)) ^ (α + 1) ≠ (τ / (τ + 1)) ^ (α + 1) * (τ / (τ + 1)) ^ (α + 1) := by
  have h1 : (0 : ℝ) < τ + 1 := by positivity
  have h2 : (0 : ℝ) < τ + 2 := by positivity
  rw [← Real.mul_rpow (by positivity) (by positivity)]
  apply ne_of_gt
  apply Real.rpow_lt_rpow (by positivity) _ (by positivity)
  rw [div_mul_div_comm, div_lt_div_iff₀ (by positivity) h2]
  nlinarith

/-! ## C122 -/

/-- The state of all variables in which the node is in state `x`, its parents in the states `u` and everything else in state 0. -/
def Spec.assignState (n : Label) (parents : List Label) (x : Nat) (u : List Nat) : Label → Nat :=
  fun l => if l = n then x else (u[parents.idxOf l]?).getD 0

theorem assignState_parents {n : Label} {parents : List Label} (hnd : parents.Nodup) (hself : n ∉ parents) {x : Nat} {u : List Nat}
    (hu : u.length = parents.length) : parents.map (assignState n parents x u) = u := by
  apply List.ext_getElem (by simp [hu])
  intro k h1 h2
  have hk : k < parents.length := by simpa using h1
  have hne : parents[k] ≠ n := fun e => hself (e ▸ List.getElem_mem hk)
  rw [List.getElem_map, assignState, if_neg hne, hnd.idxOf_getElem k hk, List.getElem?_eq_getElem h2]
  rfl

/-- **C122.**  For a node with `c ≥ 2` states and (other) parents with cardinalities `ps`: the score is the logarithm of the marginal likelihood
of the observed data for every data set if and only if every parent has one state or as many states as the node. -/
theorem score_is_marginal_iff {s : Structure} {g : NetworkGraph} (hg : Reach s g) (hpos : PosCards s) (ho : OwnColumns s) {n : Label}
    (hn : n ∈ s.labels) {c : Nat} (hcn : s.getStatesNumber n = .ok c) (hc : 2 ≤ c) {ps : List Nat}
    (hps : ps.map Except.ok = (parentsOf g n).map s.getStatesNumber) (hself : n ∉ parentsOf g n)
    {tau alpha : ℝ} (hτ : 0 < tau) (hα : 0 < alpha) (R : List (List Bool))
    {us : List (List Nat)} (hnd : us.Nodup) (hus : ∀ u, u ∈ us ↔ InRangeAssign ps u) :
    (∀ t, DataOK s t → (∀ d ∈ t.times, 0 ≤ d) → ∃ v g', (sbEnv s t tau alpha R).scoreGraph n g = .ok (v, g') ∧
      Real.exp v = (us.map (fun u => (observed s t n (parentsOf g n) c u).marginal tau alpha c)).prod) ↔
    ∀ p ∈ ps, p = 1 ∨ p = c := by
  constructor
  · intro H
    obtain ⟨hI, hs⟩ := hg.inv
    have hw : WFStructure s := hs ▸ hI.cs.toWFStructure
    have hls : ∀ x ∈ parentsOf g n, x ∈ s.labels := fun x hx => hs ▸ mem_parentsOf hx
    have hPnd : (parentsOf g n).Nodup := List.Nodup.filter _ (hs ▸ hw.nodup)
    have hval : ∀ l ∈ s.labels, ∀ v, s.getStatesNumber l = .ok v → 0 < v := by
      intro l hl v hv
      obtain ⟨w, hw', e⟩ := getStatesNumber_mem hw hl
      rw [hv] at e; cases e; exact hpos v hw'
    have hpp : ∀ p ∈ ps, 0 < p := by
      intro p hp
      have : Except.ok p ∈ (parentsOf g n).map s.getStatesNumber := by rw [← hps]; exact List.mem_map_of_mem hp
      obtain ⟨l, hl, hlv⟩ := List.mem_map.1 this
      exact hval l (hls l hl) p hlv
    have hplen : ps.length = (parentsOf g n).length := by simpa using congrArg List.length hps
    -- what a returning score is
    have hsc : ∀ t v g', (sbEnv s t tau alpha R).scoreGraph n g = .ok (v, g') →
        ∃ sofc, ParamsEst.estimate t g n = .ok sofc ∧ getFamScore sofc.cims tau alpha = .ok v := by
      intro t v g' h
      unfold scoreGraph at h
      have hsplit := estimate_split t g n
      cases hf : g.fastInit n with
      | error e => rw [hf] at h; cases h
      | ok g2 =>
        rw [hf] at h hsplit
        simp only [Except.bind_ok'] at h hsplit
        cases hco : computeOn t g2 n with
        | error e =>
          have : (sbEnv s t tau alpha R).score n g2 = .error e := by
            show famScoreOn t tau alpha n g2 = _
            unfold famScoreOn; rw [hco]; rfl
          rw [this] at h; cases h
        | ok sofc =>
          refine ⟨sofc, by rw [hsplit, hco], ?_⟩
          have e : (sbEnv s t tau alpha R).score n g2 = getFamScore sofc.cims tau alpha := by
            show famScoreOn t tau alpha n g2 = _
            unfold famScoreOn; rw [hco]; rfl
          rw [e] at h
          cases hfs : getFamScore sofc.cims tau alpha with
          | error e => rw [hfs] at h; cases h
          | ok v' => rw [hfs] at h; cases h; rfl
    -- all slots are in bounds
    have hd1 : ∀ σs : List (Label → Nat), ∀ d ∈ (stateData s σs).times, (0 : ℚ) ≤ d := by
      intro σs d hd
      obtain ⟨_, _, rfl⟩ := List.mem_map.1 hd
      norm_num
    by_contra hbad
    push Not at hbad
    have hin : ∀ x u, x < c → InRangeAssign ps u → x + parentSlot ps u < c * ps.prod ∧
        ∀ l ∈ s.labels, ∀ v, s.getStatesNumber l = .ok v → assignState n (parentsOf g n) x u l < v := by
      intro x u hx hu
      have hul : u.length = (parentsOf g n).length := by rw [← hplen]; exact hu.length_eq
      have hrange : ∀ l ∈ s.labels, ∀ v, s.getStatesNumber l = .ok v → assignState n (parentsOf g n) x u l < v := by
        intro l hl v hv
        unfold assignState
        by_cases hln : l = n
        · subst hln; rw [hcn] at hv; cases hv; rw [if_pos rfl]; exact hx
        · rw [if_neg hln]
          by_cases hlp : l ∈ parentsOf g n
          · have hk := List.idxOf_lt_length_of_mem hlp
            have hk1 : (parentsOf g n).idxOf l < u.length := by omega
            have hk2 : (parentsOf g n).idxOf l < ps.length := by omega
            have hlt := (List.forall₂_iff_get.1 hu).2 _ hk1 hk2
            have hpl : ps[(parentsOf g n).idxOf l] = v := by
              have := congrArg (fun l' => l'[(parentsOf g n).idxOf l]?) hps
              simp only [List.getElem?_map, List.getElem?_eq_getElem hk2, List.getElem?_eq_getElem hk, Option.map_some, List.getElem_idxOf,
                hv, Option.some.injEq, Except.ok.injEq] at this
              exact this
            simp only [List.get_eq_getElem, hpl] at hlt
            rw [List.getElem?_eq_getElem hk1]
            exact hlt
          · have : (parentsOf g n).idxOf l = (parentsOf g n).length := List.idxOf_eq_length hlp
            rw [this, ← hul, List.getElem?_eq_none (le_refl _)]
            exact hval l hl v hv
      refine ⟨?_, hrange⟩
      have hok : DataOK s (stateData s [assignState n (parentsOf g n) x u]) := stateData_ok hw ho _ (by
        intro σ hσ; rw [List.mem_singleton.1 hσ]; exact hrange)
      obtain ⟨v, g', h1, -⟩ := H _ hok (hd1 _)
      obtain ⟨sofc, h2, -⟩ := hsc _ _ _ h1
      refine (estimate_returns_on s g hg hpos n hn c hcn ps hps _ hok).1 ⟨sofc, h2⟩ _ (by simp [stateData]; rfl) x u ?_ ?_
      · rw [(stateRow_states hw ho _ hn).1]; simp [assignState]
      · conv_rhs => rw [← assignState_parents hPnd hself (x := x) hul]
        rw [List.map_map]
        exact List.map_congr_left (fun l hl => (stateRow_states hw ho _ (hls l hl)).1)
    have htop : InRangeAssign ps (ps.map (· - 1)) := by
      clear hps hus H hin hbad hplen
      induction ps with
      | nil => exact List.Forall₂.nil
      | cons p ps ih =>
        have := hpp p (by simp)
        exact List.Forall₂.cons (show p - 1 < p by omega) (ih (fun q hq => hpp q (by simp [hq])))
    have hbound := (hin (c - 1) _ (by omega) htop).1
    rw [parentSlot_top] at hbound
    obtain ⟨y, y', u, u', a1, a2, a3, a4, a5, a6⟩ := slots_collide (c := c) (by omega) ps hpp hbad 1 (by omega) (by simpa using hbound)
    rw [Nat.mul_one] at a1 a2
    rw [Nat.one_mul, Nat.one_mul] at a6
    -- the data
    set σ := assignState n (parentsOf g n) y u with hσ
    set σ' := assignState n (parentsOf g n) y' u' with hσ'
    set t := stateData s [σ, σ'] with htd
    have hok : DataOK s t := stateData_ok hw ho _ (by
      intro σ0 h0
      simp only [List.mem_cons, List.not_mem_nil, or_false] at h0
      rcases h0 with rfl | rfl
      · exact (hin y u a1 a3).2
      · exact (hin y' u' a2 a4).2)
    have hrows : t.rows = [stateRow s σ, stateRow s σ'] := rfl
    have htimes : t.times = [1, 1] := rfl
    have hm1 : stateRow s σ ∈ t.rows := by rw [hrows]; simp
    have hm2 : stateRow s σ' ∈ t.rows := by rw [hrows]; simp
    have hul : u.length = (parentsOf g n).length := by rw [← hplen]; exact a3.length_eq
    have hul' : u'.length = (parentsOf g n).length := by rw [← hplen]; exact a4.length_eq
    have hnatσ : ∀ (τ' : Label → Nat) l, l ∈ s.labels → natState s (stateRow s τ') l = τ' l := by
      intro τ' l hl
      simp [natState, (stateRow_states hw ho τ' hl).1]
    have n1 : natState s (stateRow s σ) n = y ∧ (parentsOf g n).map (natState s (stateRow s σ)) = u := by
      refine ⟨by rw [hnatσ σ n hn]; simp [hσ, assignState], ?_⟩
      rw [List.map_congr_left (fun l hl => hnatσ σ l (hls l hl))]
      exact assignState_parents hPnd hself hul
    have n2 : natState s (stateRow s σ') n = y' ∧ (parentsOf g n).map (natState s (stateRow s σ')) = u' := by
      refine ⟨by rw [hnatσ σ' n hn]; simp [hσ', assignState], ?_⟩
      rw [List.map_congr_left (fun l hl => hnatσ σ' l (hls l hl))]
      exact assignState_parents hPnd hself hul'
    have hnx : ∀ r ∈ t.rows, ∀ z : Nat, nextOf s r n ≠ some (z : ℤ) := by
      intro r hr z
      rw [hrows] at hr
      simp only [List.mem_cons, List.not_mem_nil, or_false] at hr
      rcases hr with rfl | rfl
      · rw [(stateRow_states hw ho σ hn).2]; intro h; have := Option.some.inj h; omega
      · rw [(stateRow_states hw ho σ' hn).2]; intro h; have := Option.some.inj h; omega
    -- the specification's statistics
    have hres : ∀ x v, residence s t n (parentsOf g n) x v = (if (x, v) = (y, u) then 1 else 0) + (if (x, v) = (y', u') then 1 else 0) := by
      intro x v
      have r1 : rowMatches s n (parentsOf g n) x v (stateRow s σ) = decide ((x, v) = (y, u)) := by
        rw [Bool.eq_iff_iff, rowMatches_iff hw hok hm1 hn hls, n1.1, n1.2]
        simp only [decide_eq_true_eq, Prod.mk.injEq]
        exact ⟨fun h => ⟨h.1.symm, h.2.symm⟩, fun h => ⟨h.1.symm, h.2.symm⟩⟩
      have r2 : rowMatches s n (parentsOf g n) x v (stateRow s σ') = decide ((x, v) = (y', u')) := by
        rw [Bool.eq_iff_iff, rowMatches_iff hw hok hm2 hn hls, n2.1, n2.2]
        simp only [decide_eq_true_eq, Prod.mk.injEq]
        exact ⟨fun h => ⟨h.1.symm, h.2.symm⟩, fun h => ⟨h.1.symm, h.2.symm⟩⟩
      unfold residence
      rw [hrows, htimes]
      simp only [List.zip_cons_cons, List.zip_nil_right, List.filter_cons, List.filter_nil, r1, r2]
      simp only [decide_eq_true_eq]
      split_ifs <;> norm_num
    have hcnt : ∀ x z v, transitions s t n (parentsOf g n) x z v = 0 := by
      intro x z v
      unfold transitions
      rw [List.length_eq_zero_iff, List.filter_eq_nil_iff]
      intro r hr
      simp [hnx r hr z]
    -- the code's statistics
    have hst : ∀ q, slotTime s t n (parentsOf g n) ps q = if q = y + parentSlot ps u then 2 else 0 := by
      intro q
      unfold slotTime
      rw [hrows, htimes]
      have s1 : slotOf s n (parentsOf g n) ps (stateRow s σ) = y + parentSlot ps u := by unfold slotOf; rw [n1.1, n1.2]
      have s2 : slotOf s n (parentsOf g n) ps (stateRow s σ') = y + parentSlot ps u := by unfold slotOf; rw [n2.1, n2.2, a6]
      simp only [List.zip_cons_cons, List.zip_nil_right, List.filter_cons, List.filter_nil, s1, s2]
      by_cases h1 : q = y + parentSlot ps u
      · simp [h1]; norm_num
      · simp [h1, Ne.symm h1]
    have hmv : ∀ q z, slotMoves s t n (parentsOf g n) ps q z = 0 := by
      intro q z
      unfold slotMoves
      rw [List.length_eq_zero_iff, List.filter_eq_nil_iff]
      intro r hr
      simp [hnx r hr z]
    obtain ⟨v, g', h1, h2⟩ := H t hok (hd1 _)
    obtain ⟨sofc, h3, h4⟩ := hsc _ _ _ h1
    obtain ⟨-, q, h5⟩ := estimation_by_slots s g hg hpos n hn c hcn ps hps t hok sofc h3
    have hstat0 : ∀ r x y, (slotStats s t n (parentsOf g n) ps c r).count x y = 0 := by
      intro r x y
      unfold slotStats
      simp [hmv]
    have hstatT : ∀ r x, (0 : ℚ) ≤ (slotStats s t n (parentsOf g n) ps c r).time x := by
      intro r x
      show 0 ≤ slotTime s t n (parentsOf g n) ps (r * c + x)
      rw [hst]; split <;> norm_num
    have hprodpos := prod_pos_of_pos hpp
    obtain ⟨v', f1, f2⟩ := famscore_is_log_marginal hτ hα hc
      (l := (List.range ps.prod).map (fun r => (slotStats s t n (parentsOf g n) ps c r, q r)))
      (fun e => by
        have := congrArg List.length e
        rw [List.length_map, List.length_range] at this
        exact absurd this hprodpos.ne') (by
        intro p hp
        obtain ⟨r, -, rfl⟩ := List.mem_map.1 hp
        refine ⟨fun x _ => hstatT r x, fun x _ => ?_⟩
        rw [hstat0]
        exact (Finset.sum_eq_zero (fun z _ => hstat0 r x z)).symm)
    rw [h5] at h4
    rw [f1] at h4
    cases h4
    -- the code's product
    have hL : Real.exp v = (tau / (tau + 2)) ^ (alpha + 1) := by
      rw [f2, List.map_map]
      have e1 : (List.range ps.prod).map ((fun p : Stats × List (List ℚ) => p.1.marginal tau alpha c) ∘
          fun r => (slotStats s t n (parentsOf g n) ps c r, q r)) =
          (List.range ps.prod).map (fun r => ∏ x ∈ Finset.range c,
            (tau / (tau + ((if r * c + x = y + parentSlot ps u then 2 else 0 : ℚ) : ℝ))) ^ (alpha + 1)) := by
        apply List.map_congr_left
        intro r _
        simp only [Function.comp]
        rw [marginal_no_moves hτ hα (fun x y _ _ => hstat0 r x y) (fun x _ => hstatT r x)]
        apply Finset.prod_congr rfl
        intro x _
        show (tau / (tau + (slotTime s t n (parentsOf g n) ps (r * c + x) : ℝ))) ^ (alpha + 1) = _
        rw [hst]
      rw [e1, ← List.prod_toFinset _ (List.nodup_range), List.toFinset_range, ← Finset.prod_product']
      have hq := (hin y u a1 a3).1
      have hmem : ((y + parentSlot ps u) / c, (y + parentSlot ps u) % c) ∈ Finset.range ps.prod ×ˢ Finset.range c := by
        rw [Finset.mem_product, Finset.mem_range, Finset.mem_range]
        refine ⟨?_, Nat.mod_lt _ (by omega)⟩
        rw [Nat.div_lt_iff_lt_mul (by omega), Nat.mul_comm]
        exact hq
      rw [Finset.prod_eq_single_of_mem _ hmem]
      · dsimp only
        rw [if_pos (by rw [Nat.mul_comm]; exact Nat.div_add_mod _ _)]
        norm_num
      · rintro ⟨r, x⟩ hrx hne
        have hx := Finset.mem_range.1 (Finset.mem_product.1 hrx).2
        dsimp only at hx ⊢
        rw [if_neg]
        · simp [hτ.ne']
        · intro e
          apply hne
          rw [← e, Nat.mul_comm r c, Nat.mul_add_div (by omega), Nat.mul_add_mod, Nat.div_eq_of_lt hx, Nat.mod_eq_of_lt hx, Nat.add_zero]
    have hR : (us.map (fun u => (observed s t n (parentsOf g n) c u).marginal tau alpha c)).prod =
        (tau / (tau + 1)) ^ (alpha + 1) * (tau / (tau + 1)) ^ (alpha + 1) := by
      have e1 : us.map (fun u => (observed s t n (parentsOf g n) c u).marginal tau alpha c) =
          us.map (fun w => ∏ x ∈ Finset.range c, (tau / (tau + (((if (x, w) = (y, u) then 1 else 0) +
            (if (x, w) = (y', u') then 1 else 0) : ℚ) : ℝ))) ^ (alpha + 1)) := by
        apply List.map_congr_left
        intro w _
        rw [marginal_no_moves hτ hα]
        · apply Finset.prod_congr rfl
          intro x _
          show (tau / (tau + (residence s t n (parentsOf g n) x w : ℝ))) ^ (alpha + 1) = _
          rw [hres]
        · intro x z _ _
          unfold observed
          simp [hcnt]
        · intro x _
          show 0 ≤ residence s t n (parentsOf g n) x w
          rw [hres]
          split <;> split <;> norm_num
      rw [e1, ← List.prod_toFinset _ hnd, ← Finset.prod_product']
      rw [Finset.prod_eq_mul_of_mem (u, y) (u', y')]
      · have hne : (y, u) ≠ (y', u') := a5
        dsimp only
        rw [if_pos rfl, if_neg hne, if_neg (Ne.symm hne), if_pos rfl]
        norm_num
      · rw [Finset.mem_product, List.mem_toFinset, hus, Finset.mem_range]; exact ⟨a3, a1⟩
      · rw [Finset.mem_product, List.mem_toFinset, hus, Finset.mem_range]; exact ⟨a4, a2⟩
      · intro e
        apply a5
        simp only [Prod.mk.injEq] at e ⊢
        exact ⟨e.2, e.1⟩
      · rintro ⟨w, x⟩ hwx ⟨hne1, hne2⟩
        dsimp only
        rw [if_neg, if_neg]
        · simp [hτ.ne']
        · intro e; apply hne2; simp only [Prod.mk.injEq] at e ⊢; exact ⟨e.2, e.1⟩
        · intro e; apply hne1; simp only [Prod.mk.injEq] at e ⊢; exact ⟨e.2, e.1⟩
    rw [hL, hR] at h2
    exact two_cells_ne hτ hα h2
  · intro hpp t ht htimes
    exact score_is_log_marginal_partial hg ht htimes hn hcn hc hps hpp hτ hα R hnd hus

/-- The theorem applied: with a binary child and a binary parent the score is always right; with a ternary parent of a binary child it is not. -/
example {tau alpha : ℝ} (hτ : 0 < tau) (hα : 0 < alpha) : ∀ t, DataOK exS2 t → (∀ d ∈ t.times, 0 ≤ d) →
    ∃ v g', (sbEnv exS2 t tau alpha []).scoreGraph "X" (NetworkGraph.new exS2) = .ok (v, g') ∧
      Real.exp v = ((meshRest [2]).map (fun u => (observed exS2 t "X" (parentsOf (NetworkGraph.new exS2) "X") 2 u).marginal tau alpha 2)).prod :=
  (score_is_marginal_iff exG2_reach (by unfold PosCards; decide) ⟨by decide, by decide⟩ (n := "X") (by decide) (c := 2) rfl (le_refl _) (ps := [2]) rfl
    (by decide) hτ hα [] (us := meshRest [2]) (by decide) (fun u => by
      rw [List.mem_iff_getElem?]
      exact ⟨fun ⟨r, hr⟩ => (meshRest_getElem?.1 hr).1, fun h => ⟨_, meshRest_getElem?.2 ⟨h, rfl⟩⟩⟩)).2 (by simp)

example {tau alpha : ℝ} (hτ : 0 < tau) (hα : 0 < alpha) : ¬ ∀ t, DataOK ⟨["X", "Y"], [0, 1], [2, 3], [("Y", "X")], 2⟩ t → (∀ d ∈ t.times, 0 ≤ d) →
    ∃ v g', (sbEnv ⟨["X", "Y"], [0, 1], [2, 3], [("Y", "X")], 2⟩ t tau alpha []).scoreGraph "X"
        (NetworkGraph.new ⟨["X", "Y"], [0, 1], [2, 3], [("Y", "X")], 2⟩) = .ok (v, g') ∧
      Real.exp v = ((meshRest [3]).map (fun u => (observed ⟨["X", "Y"], [0, 1], [2, 3], [("Y", "X")], 2⟩ t "X"
        (parentsOf (NetworkGraph.new ⟨["X", "Y"], [0, 1], [2, 3], [("Y", "X")], 2⟩) "X") 2 u).marginal tau alpha 2)).prod := by
  rw [score_is_marginal_iff (.new ⟨⟨by decide, rfl, rfl⟩, by decide⟩) (by unfold PosCards; decide) ⟨by decide, by decide⟩ (n := "X") (by decide)
    (c := 2) rfl (le_refl _) (ps := [3]) rfl (by decide) hτ hα [] (us := meshRest [3]) (by decide) (fun u => by
      rw [List.mem_iff_getElem?]
      exact ⟨fun ⟨r, hr⟩ => (meshRest_getElem?.1 hr).1, fun h => ⟨_, meshRest_getElem?.2 ⟨h, rfl⟩⟩⟩)]
  intro h
  have := h 3 (by simp)
  omega

end PyCTBN
