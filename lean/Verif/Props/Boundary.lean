import Verif.Props.Params

/-!
# For exactly which cardinalities parameter estimation is right (C94)
-/

namespace PyCTBN
open Spec

theorem zeros_rank (ps : List Nat) (us : List Nat) (h : ∀ u ∈ us, u = 0) : rank ps us = 0 ∧ ∀ a, strideSum a ps us = 0 := by
  induction ps generalizing us with
  | nil => simp [rank, strideSum]
  | cons p ps ih =>
    cases us with
    | nil => simp [rank, strideSum]
    | cons u us =>
      obtain ⟨h1, h2⟩ := ih us (fun x hx => h x (by simp [hx]))
      have := h u (by simp)
      subst this
      simp [rank, strideSum, h1, h2]

/-- The codes of an assignment in which one parent `b` is in state 1 and the others in state 0. -/
theorem onehot_codes (f : Label → Nat) (b : Label) (ls : List Label) (hn : ls.Nodup) (hb : b ∈ ls) (hpos : ∀ l ∈ ls, 0 < f l) :
    0 < rank (ls.map f) (ls.map (fun l => if l = b then 1 else 0)) ∧
      ∀ a, strideSum a (ls.map f) (ls.map (fun l => if l = b then 1 else 0)) =
        a * f b * rank (ls.map f) (ls.map (fun l => if l = b then 1 else 0)) := by
  induction ls with
  | nil => simp at hb
  | cons l ls ih =>
    rw [List.nodup_cons] at hn
    by_cases hl : l = b
    · subst hl
      obtain ⟨h1, h2⟩ := zeros_rank (ls.map f) (ls.map (fun k => if k = l then 1 else 0)) (by
        intro u hu
        obtain ⟨k, hk, rfl⟩ := List.mem_map.1 hu
        have hkl : k ≠ l := by rintro rfl; exact hn.1 hk
        rw [if_neg hkl])
      simp [rank, strideSum, h1, h2]
    · have hb' : b ∈ ls := by
        rcases List.mem_cons.1 hb with rfl | hb
        · exact absurd rfl hl
        · exact hb
      obtain ⟨h1, h2⟩ := ih hn.2 hb' (fun k hk => hpos k (by simp [hk]))
      have hfl := hpos l (by simp)
      simp only [List.map_cons, if_neg hl, rank, strideSum, Nat.zero_add, Nat.zero_mul, h2]
      exact ⟨Nat.mul_pos hfl h1, fun a => by ring⟩

/-- The estimation of `n` over the data `t` is right: it returns, its assignments are those of the parents, and beside each assignment it holds, for every
state of `n`, the total duration of the data rows in that state under that assignment. -/
def EstimatesExactly (s : Structure) (g : NetworkGraph) (n : Label) (c : Nat) (ps : List Nat) (t : Trajectory) : Prop :=
  ∃ sofc, ParamsEst.estimate t g n = .ok sofc ∧ (∀ u, u ∈ sofc.pCombs ↔ InRangeAssign ps u) ∧
    ∀ (r : Nat) (u : List Nat), sofc.pCombs[r]? = some u → ∃ cim : Cim, sofc.cims[r]? = some cim ∧
      ∀ x, x < c → cim.resTimes[x]? = some (residence s t n (parentsOf g n) x u)

/-- One row of duration 1: the variable with column `j` in state 1, all others in state 0, and the end of the trajectory. -/
def oneRow (total j : Nat) : Trajectory :=
  ⟨[1], [(List.range total).map (fun k => if k = j then (1 : ℤ) else 0) ++ (List.range total).map (fun _ => (-1 : ℤ))], total + 1⟩

/-- Variables are in distinct columns of the data. -/
structure OwnColumns (s : Structure) : Prop where
  nodup : s.indexes.Nodup
  lt : ∀ i ∈ s.indexes, i < s.total

theorem indx_inj {s : Structure} (hw : WFStructure s) (ho : s.indexes.Nodup) {l l' : Label} (hl : l ∈ s.labels) (hl' : l' ∈ s.labels) {i : Nat}
    (h : s.getNodeIndx l = .ok i) (h' : s.getNodeIndx l' = .ok i) : l = l' := by
  unfold Structure.getNodeIndx at h h'
  rw [pyIndex_of_mem hl] at h
  rw [pyIndex_of_mem hl'] at h'
  simp only [Except.bind_ok'] at h h'
  rw [pyGet_ok] at h h'
  have e : s.labels.idxOf l = s.labels.idxOf l' := by
    by_contra hne
    have h1 := (List.getElem?_eq_some_iff.1 h).1
    have h2 := (List.getElem?_eq_some_iff.1 h').1
    rcases Nat.lt_or_gt_of_ne hne with hlt | hlt
    · exact List.nodup_iff_getElem?_ne_getElem?.1 ho _ _ hlt h2 (h.trans h'.symm)
    · exact List.nodup_iff_getElem?_ne_getElem?.1 ho _ _ hlt h1 (h'.trans h.symm)
  have e1 := List.getElem?_idxOf hl
  have e2 := List.getElem?_idxOf hl'
  rw [e, e2] at e1
  exact (Option.some.inj e1).symm

theorem oneRow_states {s : Structure} (hw : WFStructure s) (ho : OwnColumns s) {b : Label} (hb : b ∈ s.labels) {j : Nat}
    (hj : s.getNodeIndx b = .ok j) : ∀ r ∈ (oneRow s.total j).rows, ∀ l ∈ s.labels,
      stateOf s r l = some ((if l = b then (1 : Nat) else 0 : Nat) : ℤ) ∧ nextOf s r l = some (-1) := by
  intro r hr l hl
  simp only [oneRow, List.mem_singleton] at hr
  subst hr
  obtain ⟨i, hi1, hi2⟩ := getNodeIndx_mem hw hl
  have hit := ho.lt i hi1
  rw [stateOf_eq hi2, nextOf_eq hi2]
  constructor
  · rw [List.getElem?_append_left (by simpa using hit), List.getElem?_map, List.getElem?_range hit]
    simp only [Option.map_some, Option.some.injEq]
    by_cases hlb : l = b
    · subst hlb
      rw [hj] at hi2
      cases hi2
      simp
    · rw [if_neg hlb, if_neg]
      · rfl
      · rintro rfl
        exact hlb (indx_inj hw ho.nodup hl hb hi2 hj)
  · rw [List.getElem?_append_right (by simp)]
    simp only [List.length_map, List.length_range, Nat.add_sub_cancel_left, List.getElem?_map, List.getElem?_range hit, Option.map_some]

theorem oneRow_ok {s : Structure} (hw : WFStructure s) (ho : OwnColumns s) (hpos : PosCards s) {b : Label} (hb : b ∈ s.labels) {j p : Nat}
    (hj : s.getNodeIndx b = .ok j) (hp : s.getStatesNumber b = .ok p) (h2 : 1 < p) : DataOK s (oneRow s.total j) := by
  have hst := oneRow_states hw ho hb hj
  refine ⟨rfl, rfl, ?_, ho.lt, ?_, ?_⟩
  · intro r hr
    simp only [oneRow, List.mem_singleton] at hr
    subst hr
    simp; ring
  · intro r hr l hl v hv
    refine ⟨_, (hst r hr l hl).1, ?_⟩
    obtain ⟨w, hw', e⟩ := getStatesNumber_mem hw hl
    rw [hv] at e
    cases e
    have := hpos v hw'
    by_cases hlb : l = b
    · subst hlb
      rw [hv] at hp
      cases hp
      rw [if_pos rfl]; exact h2
    · rw [if_neg hlb]; exact this
  · intro r hr l hl v hv
    exact .inl (hst r hr l hl).2

theorem zeroRow_ok {s : Structure} (hw : WFStructure s) (ho : OwnColumns s) (hpos : PosCards s) : DataOK s (oneRow s.total s.total) := by
  have hst : ∀ r ∈ (oneRow s.total s.total).rows, ∀ l ∈ s.labels, stateOf s r l = some ((0 : Nat) : ℤ) ∧ nextOf s r l = some (-1) := by
    intro r hr l hl
    simp only [oneRow, List.mem_singleton] at hr
    subst hr
    obtain ⟨i, hi1, hi2⟩ := getNodeIndx_mem hw hl
    have hit := ho.lt i hi1
    rw [stateOf_eq hi2, nextOf_eq hi2]
    constructor
    · rw [List.getElem?_append_left (by simpa using hit), List.getElem?_map, List.getElem?_range hit]
      simp only [Option.map_some, Option.some.injEq]
      rw [if_neg (by omega)]; rfl
    · rw [List.getElem?_append_right (by simp)]
      simp only [List.length_map, List.length_range, Nat.add_sub_cancel_left, List.getElem?_map, List.getElem?_range hit, Option.map_some]
  refine ⟨rfl, rfl, ?_, ho.lt, ?_, ?_⟩
  · intro r hr
    simp only [oneRow, List.mem_singleton] at hr
    subst hr
    simp; ring
  · intro r hr l hl v hv
    refine ⟨_, (hst r hr l hl).1, ?_⟩
    obtain ⟨w, hw', e⟩ := getStatesNumber_mem hw hl
    rw [hv] at e
    cases e
    exact hpos v hw'
  · intro r hr l hl v hv
    exact .inl (hst r hr l hl).2

/-- Telling for every single-row data set of duration 1 which residence times are 0 already forces the cardinalities. -/
theorem exactCards_of_rough (s : Structure) (g : NetworkGraph) (hg : Reach s g) (hpos : PosCards s) (ho : OwnColumns s) (n : Label)
    (hn : n ∈ s.labels) (c : Nat) (hcn : s.getStatesNumber n = .ok c) (ps : List Nat)
    (hps : ps.map Except.ok = (parentsOf g n).map s.getStatesNumber)
    (h : ∀ j, DataOK s (oneRow s.total j) → ∃ sofc, ParamsEst.estimate (oneRow s.total j) g n = .ok sofc ∧
      (∀ u, u ∈ sofc.pCombs ↔ InRangeAssign ps u) ∧
      ∀ (r : Nat) (u : List Nat), sofc.pCombs[r]? = some u → ∃ cim : Cim, sofc.cims[r]? = some cim ∧
        ∀ x, x < c → ∃ T, cim.resTimes[x]? = some T ∧ (T = 0 → residence s (oneRow s.total j) n (parentsOf g n) x u = 0)) : ExactCards c ps := by
  obtain ⟨hI, hs⟩ := hg.inv
  have hw : WFStructure s := hs ▸ hI.cs.toWFStructure
  have hval : ∀ l ∈ s.labels, ∀ v, s.getStatesNumber l = .ok v → 0 < v := by
    intro l hl v hv
    obtain ⟨w, hw', e⟩ := getStatesNumber_mem hw hl
    rw [hv] at e; cases e; exact hpos v hw'
  have hc : 0 < c := hval n hn c hcn
  have hls : ∀ x ∈ parentsOf g n, x ∈ s.labels := fun x hx => hs ▸ mem_parentsOf hx
  obtain ⟨c', i, ps', is, e1, e2, e3, e4, e5⟩ := estimate_unfold hg hn
  rw [hcn] at e1; cases e1
  have : ps' = ps := (List.map_injective_iff.2 (fun _ _ h => Except.ok.inj h)) (e3.trans hps.symm)
  subst this
  have hpp : ∀ p ∈ ps', 0 < p := by
    intro p hp
    have : Except.ok p ∈ (parentsOf g n).map s.getStatesNumber := by rw [← e3]; exact List.mem_map_of_mem hp
    obtain ⟨l, hl, hlv⟩ := List.mem_map.1 this
    exact hval l (hls l hl) p hlv
  have hk : 0 < ps'.prod := prod_pos_of_pos hpp
  have hT := fun t => resTime_returns_iff (t := t) (cols := i :: is) hk hc (timeIdx_last c ps')
  -- what is returned
  have hret : ∀ t sofc, ParamsEst.estimate t g n = .ok sofc → sofc.pCombs = buildPCombs ps' ∧
      ∀ (r : Nat) (cim : Cim), sofc.cims[r]? = some cim → cim.resTimes = (List.range c).map (fun x =>
        timeEntry t.origCols (i :: is) (buildTimeScalarIndexing c ps') (t.times.zip t.rows) (r * c + x)) := by
    intro t sofc h
    rw [e5 t] at h
    cases h1 : computeStateResTime t.times t.trajectory (i :: is) (buildTimeScalarIndexing c ps') ps'.prod c with
    | error e => rw [h1] at h; cases h
    | ok T =>
      rw [h1] at h
      simp only [Except.bind_ok'] at h
      cases h2 : computeStateTransitions i t.rows ((i + s.total) :: i :: is) (buildTransitionScalarIndexing c ps') ps'.prod c with
      | error e => rw [h2] at h; cases h
      | ok M =>
        rw [h2] at h
        simp only [Except.bind_ok', Except.ok.injEq] at h
        obtain ⟨a1, a2, a3⟩ := (hT t T).1 h1
        subst h
        refine ⟨rfl, ?_⟩
        intro r cim hr
        dsimp only at hr
        rw [List.getElem?_zipWith, a3, List.getElem?_map] at hr
        cases hrr : (List.range ps'.prod)[r]? with
        | none => rw [hrr] at hr; simp at hr
        | some r' =>
          have : r' = r := by
            have := (List.getElem?_eq_some_iff.1 hrr).2
            simpa using this.symm
          subst this
          rw [hrr] at hr
          cases hM : M[r']? with
          | none => rw [hM] at hr; simp at hr
          | some m =>
            rw [hM] at hr
            simp only [Option.map_some, Option.some.injEq] at hr
            rw [← hr]; rfl
  -- the assignments
  have hpair : ∀ p q rest, ps' = p :: q :: rest → p = q := by
    rintro p q rest rfl
    obtain ⟨sofc, s1, s2, -⟩ := h _ (zeroRow_ok hw ho hpos)
    rw [(hret _ _ s1).1] at s2
    have hsw : ∀ u, InRangeAssign (p :: q :: rest) u → InRangeAssign (q :: p :: rest) u := by
      intro u hu
      have := (s2 u).2 hu
      rw [show buildPCombs (p :: q :: rest) = meshRest (q :: p :: rest) from buildPCombs_closed _] at this
      obtain ⟨r, hr⟩ := List.mem_iff_getElem?.1 this
      exact (meshRest_getElem?.1 hr).1
    have hp0 : 0 < p := hpp p (by simp)
    have hq0 : 0 < q := hpp q (by simp)
    have hz := inRange_swap_zeros (rest := rest) (fun x hx => hpp x (by simp [hx]))
    rcases Nat.lt_trichotomy p q with hlt | heq | hgt
    · have := hsw (0 :: p :: rest.map (fun _ => 0)) (List.Forall₂.cons hp0 (List.Forall₂.cons hlt hz))
      cases this with | cons _ h2 => cases h2 with | cons h3 _ => omega
    · exact heq
    · have := hsw (q :: 0 :: rest.map (fun _ => 0)) (List.Forall₂.cons hgt (List.Forall₂.cons hq0 hz))
      cases this with | cons h1 _ => omega
  refine ⟨?_, hpair⟩
  -- the cardinalities
  let f : Label → Nat := fun l => match s.getStatesNumber l with | .ok v => v | .error _ => 0
  have hf : ∀ l ∈ s.labels, s.getStatesNumber l = .ok (f l) := by
    intro l hl
    obtain ⟨v, _, hv⟩ := getStatesNumber_mem hw hl
    simp only [f, hv]
  have hpf : ps' = (parentsOf g n).map f := by
    apply List.map_injective_iff.2 (fun _ _ h => Except.ok.inj h : Function.Injective (Except.ok : Nat → Py Nat))
    show ps'.map Except.ok = ((parentsOf g n).map f).map Except.ok
    rw [e3, List.map_map]
    exact List.map_congr_left (fun l hl => hf l (hls l hl))
  intro p hp
  rw [hpf] at hp
  obtain ⟨b, hbp, hpb⟩ := List.mem_map.1 hp
  have hb := hls b hbp
  by_cases h1 : p = 1
  · exact .inl h1
  right
  by_contra hpc
  have hp0 : 0 < p := hval b hb p (by rw [hf b hb, hpb])
  have hbn : b ≠ n := by
    rintro rfl
    have := hf b hb
    rw [hcn, hpb] at this
    cases this
    exact hpc rfl
  obtain ⟨j, -, hj⟩ := getNodeIndx_mem hw hb
  have hok := oneRow_ok hw ho hpos hb hj (by rw [hf b hb, hpb]) (by omega)
  have hst := oneRow_states hw ho hb hj
  obtain ⟨sofc, s1, s2, s3⟩ := h _ hok
  obtain ⟨q1, q2⟩ := hret _ _ s1
  let row : List ℤ := (List.range s.total).map (fun k => if k = j then (1 : ℤ) else 0) ++ (List.range s.total).map (fun _ => (-1 : ℤ))
  have hrow : row ∈ (oneRow s.total j).rows := by simp [oneRow, row]
  have hnat : ∀ l ∈ s.labels, natState s row l = if l = b then 1 else 0 := by
    intro l hl
    unfold natState
    rw [(hst row hrow l hl).1]
    by_cases hlb : l = b <;> simp [hlb]
  let u : List Nat := (parentsOf g n).map (fun l => if l = b then 1 else 0)
  have hu' : (parentsOf g n).map (natState s row) = u := List.map_congr_left (fun l hl => hnat l (hls l hl))
  have hu : InRangeAssign ps' u := by
    rw [← hu']
    exact inRange_states hw hok hrow hls hps
  have hen := p_combs_enumeration_partial ps' hpair
  have hru : sofc.pCombs[rank ps' u]? = some u := by rw [q1]; exact (hen.1 _ u).2 ⟨hu, rfl⟩
  obtain ⟨cim, c1, c2⟩ := s3 _ _ hru
  obtain ⟨T, hres, hT0⟩ := c2 0 hc
  rw [q2 _ _ c1, List.getElem?_map, List.getElem?_range hc] at hres
  simp only [Option.map_some, Option.some.injEq, Nat.add_zero] at hres
  -- the specification says 1
  have hspec : residence s (oneRow s.total j) n (parentsOf g n) 0 u = 1 := by
    have hm : rowMatches s n (parentsOf g n) 0 u row = true := by
      rw [rowMatches_iff hw hok hrow hn hls]
      exact ⟨by rw [hnat n hn, if_neg (Ne.symm hbn)], hu'⟩
    unfold residence
    show ((([(1 : ℚ)].zip [row]).filter (fun r => rowMatches s n (parentsOf g n) 0 u r.2)).map Prod.fst).sum = 1
    simp [hm]
  -- the code counts the row elsewhere
  have hcode : tcode (oneRow s.total j).origCols (i :: is) (buildTimeScalarIndexing c ps') row = .ok ((strideSum 1 ps' u : Nat) : ℤ) := by
    have hsel := select_time hw hok hn hls hcn e2 e4 hrow
    rw [hu', hnat n hn, if_neg (Ne.symm hbn)] at hsel
    have := rowIndex_time (ps := ps') hc hsel
    rw [Nat.zero_add] at this
    exact this
  have hone := onehot_codes f b (parentsOf g n) (List.Nodup.filter _ (hs ▸ hw.nodup)) hbp (fun l hl => hval l (hls l hl) _ (hf l (hls l hl)))
  rw [← hpf] at hone
  have hne : ¬ (((strideSum 1 ps' u : Nat) : ℤ) = ((rank ps' u * c : Nat) : ℤ)) := by
    intro e
    have e := Int.ofNat_inj.1 e
    have h2 := hone.2 1
    have h3 : strideSum 1 ps' u = 1 * f b * rank ps' u := h2
    rw [h3, Nat.one_mul, hpb, Nat.mul_comm p] at e
    exact hpc (Nat.eq_of_mul_eq_mul_left hone.1 e)
  have hzero : timeEntry (oneRow s.total j).origCols (i :: is) (buildTimeScalarIndexing c ps')
      ((oneRow s.total j).times.zip (oneRow s.total j).rows) (rank ps' u * c) = 0 := by
    unfold timeEntry
    show ((([(1 : ℚ)].zip [row]).filter (fun p => decide (okVal (tcode (oneRow s.total j).origCols (i :: is)
      (buildTimeScalarIndexing c ps') p.2) = ((rank ps' u * c : Nat) : ℤ)))).map Prod.fst).sum = 0
    simp only [List.zip_cons_cons, List.zip_nil_right, List.filter_cons, List.filter_nil, hcode, okVal, hne, decide_false]
    rfl
  rw [hzero] at hres
  have := hT0 hres.symm
  rw [hspec] at this
  exact absurd this (by norm_num)

/-- Being right on the data sets with at least one row already forces the cardinalities. -/
theorem exactCards_of_exact (s : Structure) (g : NetworkGraph) (hg : Reach s g) (hpos : PosCards s) (ho : OwnColumns s) (n : Label)
    (hn : n ∈ s.labels) (c : Nat) (hcn : s.getStatesNumber n = .ok c) (ps : List Nat)
    (hps : ps.map Except.ok = (parentsOf g n).map s.getStatesNumber)
    (h : ∀ t, DataOK s t → t.rows ≠ [] → EstimatesExactly s g n c ps t) : ExactCards c ps := by
  refine exactCards_of_rough s g hg hpos ho n hn c hcn ps hps (fun j hj => ?_)
  obtain ⟨sofc, h1, h2, h3⟩ := h _ hj (by simp [oneRow])
  refine ⟨sofc, h1, h2, fun r u hru => ?_⟩
  obtain ⟨cim, c1, c2⟩ := h3 r u hru
  exact ⟨cim, c1, fun x hx => ⟨_, c2 x hx, id⟩⟩

/-- **C94.**  For a node with `c` states and parents with cardinalities `ps` (in label order): parameter estimation is right for every data set if
and only if every parent has one state or `c` states, and the first two parents have equally many. -/
theorem estimation_exact_iff (s : Structure) (g : NetworkGraph) (hg : Reach s g) (hpos : PosCards s) (ho : OwnColumns s) (n : Label)
    (hn : n ∈ s.labels) (c : Nat) (hcn : s.getStatesNumber n = .ok c) (ps : List Nat)
    (hps : ps.map Except.ok = (parentsOf g n).map s.getStatesNumber) :
    (∀ t, DataOK s t → EstimatesExactly s g n c ps t) ↔ ExactCards c ps := by
  obtain ⟨hI, hs⟩ := hg.inv
  have hw : WFStructure s := hs ▸ hI.cs.toWFStructure
  have hval : ∀ l ∈ s.labels, ∀ v, s.getStatesNumber l = .ok v → 0 < v := by
    intro l hl v hv
    obtain ⟨w, hw', e⟩ := getStatesNumber_mem hw hl
    rw [hv] at e; cases e; exact hpos v hw'
  have hc : 0 < c := hval n hn c hcn
  have hls : ∀ x ∈ parentsOf g n, x ∈ s.labels := fun x hx => hs ▸ mem_parentsOf hx
  refine ⟨fun h => exactCards_of_exact s g hg hpos ho n hn c hcn ps hps (fun t ht _ => h t ht), ?_⟩
  · intro hex t ht
    obtain ⟨sofc, k1, k2, k3, k4, k5⟩ := residence_times_exact_partial s g hg t ht n hn c hcn hc ps hps hex
    refine ⟨sofc, k1, k4, fun r u hru => ?_⟩
    obtain ⟨cim, j1, j2, j3⟩ := k5 r u hru
    exact ⟨cim, j1, j3⟩

/-- The theorem applied: with a binary child and a binary parent estimation is always right; with a ternary parent of a binary child it is not. -/
example : (∀ t, DataOK exS2 t → EstimatesExactly exS2 (NetworkGraph.new exS2) "X" 2 [2] t) :=
  (estimation_exact_iff exS2 _ exG2_reach (by unfold PosCards; decide) ⟨by decide, by decide⟩ "X" (by decide) 2 rfl [2] rfl).2
    ⟨by simp, by intro p q rest h; cases h⟩

example : ¬ ∀ t, DataOK ⟨["X", "Y"], [0, 1], [2, 3], [("Y", "X")], 2⟩ t →
    EstimatesExactly ⟨["X", "Y"], [0, 1], [2, 3], [("Y", "X")], 2⟩ (NetworkGraph.new ⟨["X", "Y"], [0, 1], [2, 3], [("Y", "X")], 2⟩) "X" 2 [3] t := by
  rw [estimation_exact_iff _ _ (.new ⟨⟨by decide, rfl, rfl⟩, by decide⟩) (by unfold PosCards; decide) ⟨by decide, by decide⟩ "X" (by decide) 2 rfl [3] rfl]
  intro h
  have := h.1 3 (by simp)
  omega

/-! ## The same boundary for the transition counts -/

/-- The transition counts of `n` over the data `t` are right: the estimation returns, its assignments are those of the parents, and beside each
assignment it holds, for every pair of distinct states of `n`, the number of data rows going from the one to the other under that assignment. -/
def CountsExactly (s : Structure) (g : NetworkGraph) (n : Label) (c : Nat) (ps : List Nat) (t : Trajectory) : Prop :=
  ∃ sofc, ParamsEst.estimate t g n = .ok sofc ∧ (∀ u, u ∈ sofc.pCombs ↔ InRangeAssign ps u) ∧
    ∀ (r : Nat) (u : List Nat), sofc.pCombs[r]? = some u → ∃ cim : Cim, sofc.cims[r]? = some cim ∧
      ∀ x x', x < c → x' < c → x ≠ x' → entry2 cim.trans x x' = some (transitions s t n (parentsOf g n) x x' u)

/-- One row of duration 1: the variable with column `j` in state 1, all others in state 0; the variable with column `i` goes to state 1. -/
def oneStep (total j i : Nat) : Trajectory :=
  ⟨[1], [(List.range total).map (fun k => if k = j then (1 : ℤ) else 0) ++ (List.range total).map (fun k => if k = i then (1 : ℤ) else -1)],
    total + 1⟩

theorem oneStep_states {s : Structure} (hw : WFStructure s) (ho : OwnColumns s) {b n : Label} (hb : b ∈ s.labels) (hn : n ∈ s.labels) {j i : Nat}
    (hj : s.getNodeIndx b = .ok j) (hi : s.getNodeIndx n = .ok i) : ∀ r ∈ (oneStep s.total j i).rows, ∀ l ∈ s.labels,
      stateOf s r l = some ((if l = b then (1 : Nat) else 0 : Nat) : ℤ) ∧ nextOf s r l = some (if l = n then 1 else -1) := by
  intro r hr l hl
  simp only [oneStep, List.mem_singleton] at hr
  subst hr
  obtain ⟨k, hk1, hk2⟩ := getNodeIndx_mem hw hl
  have hit := ho.lt k hk1
  rw [stateOf_eq hk2, nextOf_eq hk2]
  constructor
  · rw [List.getElem?_append_left (by simpa using hit), List.getElem?_map, List.getElem?_range hit]
    simp only [Option.map_some, Option.some.injEq]
    by_cases hlb : l = b
    · subst hlb
      rw [hj] at hk2
      cases hk2
      simp
    · rw [if_neg hlb, if_neg]
      · rfl
      · rintro rfl
        exact hlb (indx_inj hw ho.nodup hl hb hk2 hj)
  · rw [List.getElem?_append_right (by simp)]
    simp only [List.length_map, List.length_range, Nat.add_sub_cancel_left, List.getElem?_map, List.getElem?_range hit, Option.map_some,
      Option.some.injEq]
    by_cases hln : l = n
    · subst hln
      rw [hi] at hk2
      cases hk2
      simp
    · rw [if_neg hln, if_neg]
      rintro rfl
      exact hln (indx_inj hw ho.nodup hl hn hk2 hi)

theorem oneStep_ok {s : Structure} (hw : WFStructure s) (ho : OwnColumns s) (hpos : PosCards s) {b n : Label} (hb : b ∈ s.labels) (hn : n ∈ s.labels)
    {j i p c : Nat} (hj : s.getNodeIndx b = .ok j) (hi : s.getNodeIndx n = .ok i) (hp : s.getStatesNumber b = .ok p) (h2 : 1 < p)
    (hcn : s.getStatesNumber n = .ok c) (hc2 : 1 < c) : DataOK s (oneStep s.total j i) := by
  have hst := oneStep_states hw ho hb hn hj hi
  refine ⟨rfl, rfl, ?_, ho.lt, ?_, ?_⟩
  · intro r hr
    simp only [oneStep, List.mem_singleton] at hr
    subst hr
    simp; ring
  · intro r hr l hl v hv
    refine ⟨_, (hst r hr l hl).1, ?_⟩
    obtain ⟨w, hw', e⟩ := getStatesNumber_mem hw hl
    rw [hv] at e
    cases e
    have := hpos v hw'
    by_cases hlb : l = b
    · subst hlb
      rw [hv] at hp
      cases hp
      rw [if_pos rfl]; exact h2
    · rw [if_neg hlb]; exact this
  · intro r hr l hl v hv
    rw [(hst r hr l hl).2]
    by_cases hln : l = n
    · subst hln
      rw [hv] at hcn
      cases hcn
      exact .inr ⟨1, by simp, hc2⟩
    · exact .inl (by rw [if_neg hln])

/-- **C95.**  The boundary of C94 is also that of the transition counts, for every node with at least two states. -/
theorem counts_exact_iff (s : Structure) (g : NetworkGraph) (hg : Reach s g) (hpos : PosCards s) (ho : OwnColumns s) (n : Label)
    (hn : n ∈ s.labels) (c : Nat) (hcn : s.getStatesNumber n = .ok c) (hc2 : 2 ≤ c) (ps : List Nat)
    (hps : ps.map Except.ok = (parentsOf g n).map s.getStatesNumber) :
    (∀ t, DataOK s t → CountsExactly s g n c ps t) ↔ ExactCards c ps := by
  obtain ⟨hI, hs⟩ := hg.inv
  have hw : WFStructure s := hs ▸ hI.cs.toWFStructure
  have hval : ∀ l ∈ s.labels, ∀ v, s.getStatesNumber l = .ok v → 0 < v := by
    intro l hl v hv
    obtain ⟨w, hw', e⟩ := getStatesNumber_mem hw hl
    rw [hv] at e; cases e; exact hpos v hw'
  have hc : 0 < c := by omega
  have hls : ∀ x ∈ parentsOf g n, x ∈ s.labels := fun x hx => hs ▸ mem_parentsOf hx
  constructor
  · intro h
    obtain ⟨c', i, ps', is, e1, e2, e3, e4, e5⟩ := estimate_unfold hg hn
    rw [hcn] at e1; cases e1
    have : ps' = ps := (List.map_injective_iff.2 (fun _ _ h => Except.ok.inj h)) (e3.trans hps.symm)
    subst this
    have hpp : ∀ p ∈ ps', 0 < p := by
      intro p hp
      have : Except.ok p ∈ (parentsOf g n).map s.getStatesNumber := by rw [← e3]; exact List.mem_map_of_mem hp
      obtain ⟨l, hl, hlv⟩ := List.mem_map.1 this
      exact hval l (hls l hl) p hlv
    have hk : 0 < ps'.prod := prod_pos_of_pos hpp
    have hM := fun t : Trajectory => transitions_returns_iff (i := i) (rows := t.rows) (cols := (i + s.total) :: i :: is) hk hc (transIdx_last c ps')
    -- what is returned
    have hret : ∀ t sofc, ParamsEst.estimate t g n = .ok sofc → sofc.pCombs = buildPCombs ps' ∧
        ∀ (r : Nat) (cim : Cim), sofc.cims[r]? = some cim → ∀ x x', x < c → x' < c → x ≠ x' →
          entry2 cim.trans x x' = some (transEntry i ((i + s.total) :: i :: is) (buildTransitionScalarIndexing c ps') t.rows
            ((r * c + x) * c + x')) := by
      intro t sofc h
      rw [e5 t] at h
      cases h1 : computeStateResTime t.times t.trajectory (i :: is) (buildTimeScalarIndexing c ps') ps'.prod c with
      | error e => rw [h1] at h; cases h
      | ok T =>
        rw [h1] at h
        simp only [Except.bind_ok'] at h
        cases h2 : computeStateTransitions i t.rows ((i + s.total) :: i :: is) (buildTransitionScalarIndexing c ps') ps'.prod c with
        | error e => rw [h2] at h; cases h
        | ok M =>
          rw [h2] at h
          simp only [Except.bind_ok', Except.ok.injEq] at h
          obtain ⟨a1, a2⟩ := (hM t M).1 h2
          subst h
          refine ⟨rfl, ?_⟩
          intro r cim hr x x' hx hx' hne
          dsimp only at hr
          rw [List.getElem?_zipWith, a2, List.getElem?_map] at hr
          cases hrr : (List.range ps'.prod)[r]? with
          | none => rw [hrr] at hr; cases hT : T[r]? <;> rw [hT] at hr <;> simp at hr
          | some r' =>
            have : r' = r := by
              have := (List.getElem?_eq_some_iff.1 hrr).2
              simpa using this.symm
            subst this
            rw [hrr] at hr
            cases hT : T[r']? with
            | none => rw [hT] at hr; simp at hr
            | some m =>
              rw [hT] at hr
              simp only [Option.map_some, Option.some.injEq] at hr
              rw [← hr]
              simp [Cim.build, entry2, List.getElem?_range hx, List.getElem?_range hx', hne]
    -- the assignments
    have hpair : ∀ p q rest, ps' = p :: q :: rest → p = q := by
      rintro p q rest rfl
      obtain ⟨sofc, s1, s2, -⟩ := h ⟨[], [], s.total + 1⟩ ⟨rfl, rfl, by simp, ho.lt, by simp, by simp⟩
      rw [(hret _ _ s1).1] at s2
      have hsw : ∀ u, InRangeAssign (p :: q :: rest) u → InRangeAssign (q :: p :: rest) u := by
        intro u hu
        have := (s2 u).2 hu
        rw [show buildPCombs (p :: q :: rest) = meshRest (q :: p :: rest) from buildPCombs_closed _] at this
        obtain ⟨r, hr⟩ := List.mem_iff_getElem?.1 this
        exact (meshRest_getElem?.1 hr).1
      have hp0 : 0 < p := hpp p (by simp)
      have hq0 : 0 < q := hpp q (by simp)
      have hz := inRange_swap_zeros (rest := rest) (fun x hx => hpp x (by simp [hx]))
      rcases Nat.lt_trichotomy p q with hlt | heq | hgt
      · have := hsw (0 :: p :: rest.map (fun _ => 0)) (List.Forall₂.cons hp0 (List.Forall₂.cons hlt hz))
        cases this with | cons _ h2 => cases h2 with | cons h3 _ => omega
      · exact heq
      · have := hsw (q :: 0 :: rest.map (fun _ => 0)) (List.Forall₂.cons hgt (List.Forall₂.cons hq0 hz))
        cases this with | cons h1 _ => omega
    refine ⟨?_, hpair⟩
    -- the cardinalities
    let f : Label → Nat := fun l => match s.getStatesNumber l with | .ok v => v | .error _ => 0
    have hf : ∀ l ∈ s.labels, s.getStatesNumber l = .ok (f l) := by
      intro l hl
      obtain ⟨v, _, hv⟩ := getStatesNumber_mem hw hl
      simp only [f, hv]
    have hpf : ps' = (parentsOf g n).map f := by
      apply List.map_injective_iff.2 (fun _ _ h => Except.ok.inj h : Function.Injective (Except.ok : Nat → Py Nat))
      show ps'.map Except.ok = ((parentsOf g n).map f).map Except.ok
      rw [e3, List.map_map]
      exact List.map_congr_left (fun l hl => hf l (hls l hl))
    intro p hp
    rw [hpf] at hp
    obtain ⟨b, hbp, hpb⟩ := List.mem_map.1 hp
    have hb := hls b hbp
    by_cases h1 : p = 1
    · exact .inl h1
    right
    by_contra hpc
    have hp0 : 0 < p := hval b hb p (by rw [hf b hb, hpb])
    have hbn : b ≠ n := by
      rintro rfl
      have := hf b hb
      rw [hcn, hpb] at this
      cases this
      exact hpc rfl
    obtain ⟨j, -, hj⟩ := getNodeIndx_mem hw hb
    have hok := oneStep_ok hw ho hpos hb hn hj e2 (by rw [hf b hb, hpb]) (by omega) hcn (by omega)
    have hst := oneStep_states hw ho hb hn hj e2
    obtain ⟨sofc, s1, s2, s3⟩ := h _ hok
    obtain ⟨q1, q2⟩ := hret _ _ s1
    let row : List ℤ := (List.range s.total).map (fun k => if k = j then (1 : ℤ) else 0) ++
      (List.range s.total).map (fun k => if k = i then (1 : ℤ) else -1)
    have hrow : row ∈ (oneStep s.total j i).rows := by simp [oneStep, row]
    have hnat : ∀ l ∈ s.labels, natState s row l = if l = b then 1 else 0 := by
      intro l hl
      unfold natState
      rw [(hst row hrow l hl).1]
      by_cases hlb : l = b <;> simp [hlb]
    have hnext : nextOf s row n = some ((1 : Nat) : ℤ) := by
      rw [(hst row hrow n hn).2, if_pos rfl]; rfl
    let u : List Nat := (parentsOf g n).map (fun l => if l = b then 1 else 0)
    have hu' : (parentsOf g n).map (natState s row) = u := List.map_congr_left (fun l hl => hnat l (hls l hl))
    have hu : InRangeAssign ps' u := by
      rw [← hu']
      exact inRange_states hw hok hrow hls hps
    have hen := p_combs_enumeration_partial ps' hpair
    have hru : sofc.pCombs[rank ps' u]? = some u := by rw [q1]; exact (hen.1 _ u).2 ⟨hu, rfl⟩
    obtain ⟨cim, c1, c2⟩ := s3 _ _ hru
    have hres := c2 0 1 hc (by omega) (by omega)
    rw [q2 _ _ c1 0 1 hc (by omega) (by omega)] at hres
    simp only [Option.some.injEq, Nat.add_zero] at hres
    -- the specification says 1
    have hspec : transitions s (oneStep s.total j i) n (parentsOf g n) 0 1 u = 1 := by
      have hm : rowMatches s n (parentsOf g n) 0 u row = true := by
        rw [rowMatches_iff hw hok hrow hn hls]
        exact ⟨by rw [hnat n hn, if_neg (Ne.symm hbn)], hu'⟩
      unfold transitions
      show (([row]).filter (fun r => rowMatches s n (parentsOf g n) 0 u r && decide (nextOf s r n = some ((1 : Nat) : ℤ)))).length = 1
      rw [List.filter_cons, hm, hnext]
      simp
    -- the code counts the row elsewhere
    have hcode : rowIndex ((i + s.total) :: i :: is) (buildTransitionScalarIndexing c ps') row = .ok ((1 + c * strideSum 1 ps' u : Nat) : ℤ) := by
      have hsel := select_trans hw hok hn hls e2 e4 hrow hnext
      rw [hu', hnat n hn, if_neg (Ne.symm hbn)] at hsel
      have := rowIndex_trans (ps := ps') hc hsel
      rw [Nat.zero_add] at this
      exact this
    have hone := onehot_codes f b (parentsOf g n) (List.Nodup.filter _ (hs ▸ hw.nodup)) hbp (fun l hl => hval l (hls l hl) _ (hf l (hls l hl)))
    rw [← hpf] at hone
    have hne : ¬ (((1 + c * strideSum 1 ps' u : Nat) : ℤ) = ((rank ps' u * c * c + 1 : Nat) : ℤ)) := by
      intro e
      have e := Int.ofNat_inj.1 e
      have h2 := hone.2 1
      have h3 : strideSum 1 ps' u = 1 * f b * rank ps' u := h2
      rw [h3, Nat.one_mul, hpb] at e
      have e' : c * (rank ps' u * p) = c * (rank ps' u * c) := by
        rw [Nat.mul_comm p] at e
        have : c * (rank ps' u * p) = rank ps' u * c * c := by omega
        rw [this]; ring
      exact hpc (Nat.eq_of_mul_eq_mul_left hone.1 (Nat.eq_of_mul_eq_mul_left hc e'))
    have hzero : transEntry i ((i + s.total) :: i :: is) (buildTransitionScalarIndexing c ps') (oneStep s.total j i).rows (rank ps' u * c * c + 1) = 0 := by
      unfold transEntry
      show (([row]).filter (fun r => decide (0 ≤ okVal (ncode i r)) && decide (okVal (rowIndex ((i + s.total) :: i :: is)
        (buildTransitionScalarIndexing c ps') r) = ((rank ps' u * c * c + 1 : Nat) : ℤ)))).length = 0
      simp only [List.filter_cons, List.filter_nil, hcode, okVal, hne, decide_false, Bool.and_false]
      rfl
    rw [hzero, hspec] at hres
    exact absurd hres (by norm_num)
  · intro hex t ht
    obtain ⟨sofc, k1, k2, k3, k4, k5⟩ := residence_times_exact_partial s g hg t ht n hn c hcn hc ps hps hex
    obtain ⟨sofc', m1, m2⟩ := transition_counts_exact_partial s g hg t ht n hn c hcn hc ps hps hex
    rw [k1] at m1
    cases m1
    refine ⟨sofc, k1, k4, fun r u hru => ?_⟩
    obtain ⟨cim, j1, j2, -⟩ := m2 r u hru
    exact ⟨cim, j1, j2⟩

example : ¬ ∀ t, DataOK ⟨["X", "Y"], [0, 1], [2, 3], [("Y", "X")], 2⟩ t →
    CountsExactly ⟨["X", "Y"], [0, 1], [2, 3], [("Y", "X")], 2⟩ (NetworkGraph.new ⟨["X", "Y"], [0, 1], [2, 3], [("Y", "X")], 2⟩) "X" 2 [3] t := by
  rw [counts_exact_iff _ _ (.new ⟨⟨by decide, rfl, rfl⟩, by decide⟩) (by unfold PosCards; decide) ⟨by decide, by decide⟩ "X" (by decide) 2 rfl
    (by decide) [3] rfl]
  intro h
  have := h.1 3 (by simp)
  omega

end PyCTBN
