import Verif.Props.Boundary
import Verif.Lemmas.ScoreEst

/-!
# C120: for exactly which cardinalities parameter estimation never raises

The code gives a row in which the child is in state `x` and its parents (cardinalities `p₁, …, p_k`) are in states `u₁, …, u_k` the slot
`x + u₁·p₁ + u₂·p₁p₂ + ⋯ + u_k·p₁⋯p_k`; there are `c·p₁⋯p_k` slots.
-/

namespace PyCTBN
open Spec

/-- `u₁·p₁ + u₂·p₁p₂ + ⋯ + u_k·p₁⋯p_k`. -/
def Spec.parentSlot : List Nat → List Nat → Nat
  | p :: ps, u :: us => p * (u + parentSlot ps us)
  | _, _ => 0

/-- `(p₁-1)·p₁ + (p₂-1)·p₁p₂ + ⋯ + (p_k-1)·p₁⋯p_k`: the parents' part of the highest slot. -/
def Spec.topParentSlot : List Nat → Nat
  | [] => 0
  | p :: ps => p * ((p - 1) + topParentSlot ps)

theorem strideSum_eq_slot (acc : Nat) (ps us : List Nat) : strideSum acc ps us = acc * parentSlot ps us := by
  induction ps generalizing acc us with
  | nil => simp [strideSum, parentSlot]
  | cons p ps ih =>
    cases us with
    | nil => simp [strideSum, parentSlot]
    | cons u us => simp only [strideSum, parentSlot, ih]; ring

theorem parentSlot_le {ps us : List Nat} (h : InRangeAssign ps us) : parentSlot ps us ≤ topParentSlot ps := by
  unfold InRangeAssign at h
  induction h with
  | nil => simp [parentSlot]
  | @cons u p us ps hu _ ih =>
    simp only [parentSlot, topParentSlot]
    exact Nat.mul_le_mul_left _ (by omega)

theorem parentSlot_top (ps : List Nat) : parentSlot ps (ps.map (· - 1)) = topParentSlot ps := by
  induction ps with
  | nil => rfl
  | cons p ps ih => simp only [List.map_cons, parentSlot, topParentSlot, ih]

/-! ## Data rows with prescribed states -/

/-- The row in which every variable `l` is in state `σ l`, at the end of a trajectory. -/
def Spec.stateRow (s : Structure) (σ : Label → Nat) : List ℤ :=
  (List.range s.total).map (fun k => match s.labels.find? (fun l => decide (s.getNodeIndx l = .ok k)) with
    | some l => (σ l : ℤ)
    | none => 0) ++ (List.range s.total).map (fun _ => (-1 : ℤ))

/-- Trajectories of a single row each, of duration 1. -/
def Spec.stateData (s : Structure) (σs : List (Label → Nat)) : Trajectory :=
  ⟨σs.map (fun _ => 1), σs.map (stateRow s), s.total + 1⟩

theorem stateRow_states {s : Structure} (hw : WFStructure s) (ho : OwnColumns s) (σ : Label → Nat) {l : Label} (hl : l ∈ s.labels) :
    stateOf s (stateRow s σ) l = some (σ l : ℤ) ∧ nextOf s (stateRow s σ) l = some (-1) := by
  obtain ⟨i, hi1, hi2⟩ := getNodeIndx_mem hw hl
  have hit := ho.lt i hi1
  rw [stateOf_eq hi2, nextOf_eq hi2]
  unfold stateRow
  constructor
  · rw [List.getElem?_append_left (by simpa using hit), List.getElem?_map, List.getElem?_range hit]
    have hf : s.labels.find? (fun l => decide (s.getNodeIndx l = .ok i)) = some l := by
      cases hx : s.labels.find? (fun l => decide (s.getNodeIndx l = .ok i)) with
      | none => simpa [hi2] using List.find?_eq_none.1 hx l hl
      | some l' =>
        have h1 := List.mem_of_find?_eq_some hx
        have h2 := List.find?_some hx
        rw [indx_inj hw ho.nodup h1 hl (by simpa using h2) hi2]
    simp [hf]
  · rw [List.getElem?_append_right (by simp)]
    simp only [List.length_map, List.length_range, Nat.add_sub_cancel_left, List.getElem?_map, List.getElem?_range hit, Option.map_some]

theorem stateData_ok {s : Structure} (hw : WFStructure s) (ho : OwnColumns s) (σs : List (Label → Nat))
    (h : ∀ σ ∈ σs, ∀ l ∈ s.labels, ∀ v, s.getStatesNumber l = .ok v → σ l < v) : DataOK s (stateData s σs) := by
  refine ⟨rfl, by simp [stateData], ?_, ho.lt, ?_, ?_⟩
  · intro r hr
    obtain ⟨σ, -, rfl⟩ := List.mem_map.1 hr
    simp [stateRow]; ring
  · intro r hr l hl v hv
    obtain ⟨σ, hσ, rfl⟩ := List.mem_map.1 hr
    exact ⟨σ l, (stateRow_states hw ho σ hl).1, h σ hσ l hl v hv⟩
  · intro r hr l hl v hv
    obtain ⟨σ, hσ, rfl⟩ := List.mem_map.1 hr
    exact .inl (stateRow_states hw ho σ hl).2

/-! ## C120 -/

/-- **C120**, per data set: for well-formed data, estimation of a node with `c` states and parent cardinalities `ps` returns if and only if
every row has a slot below `c·p₁⋯p_k`. -/
theorem estimate_returns_on (s : Structure) (g : NetworkGraph) (hg : Reach s g) (hpos : PosCards s) (n : Label)
    (hn : n ∈ s.labels) (c : Nat) (hcn : s.getStatesNumber n = .ok c) (ps : List Nat)
    (hps : ps.map Except.ok = (parentsOf g n).map s.getStatesNumber) (t : Trajectory) (ht : DataOK s t) :
    (∃ sofc, ParamsEst.estimate t g n = .ok sofc) ↔
      ∀ r ∈ t.rows, ∀ (x : Nat) (u : List Nat), stateOf s r n = some (x : ℤ) →
        (parentsOf g n).map (stateOf s r) = u.map (fun v : Nat => some (v : ℤ)) → x + parentSlot ps u < c * ps.prod := by
  obtain ⟨hI, hs⟩ := hg.inv
  have hw : WFStructure s := hs ▸ hI.cs.toWFStructure
  have hval : ∀ l ∈ s.labels, ∀ v, s.getStatesNumber l = .ok v → 0 < v := by
    intro l hl v hv
    obtain ⟨w, hw', e⟩ := getStatesNumber_mem hw hl
    rw [hv] at e; cases e; exact hpos v hw'
  have hc : 0 < c := hval n hn c hcn
  have hls : ∀ x ∈ parentsOf g n, x ∈ s.labels := fun x hx => hs ▸ mem_parentsOf hx
  obtain ⟨c', i, ps', is, e1, e2, e3, e4, e5⟩ := estimate_unfold hg hn
  rw [hcn] at e1; cases e1
  have : ps' = ps := (List.map_injective_iff.2 (fun _ _ h => Except.ok.inj h)) (e3.trans hps.symm)
  subst this
  have hpp : ∀ p ∈ ps', 0 < p := by
    intro p hp
    have : Except.ok p ∈ (parentsOf g n).map s.getStatesNumber := by rw [← e3]; exact List.mem_map_of_mem hp
    obtain ⟨l, hl, hlv⟩ := List.mem_map.1 this
    exact hval l (hls l hl) p hlv
  have hk : 0 < ps'.prod := prod_pos_of_pos hpp
  have hT := resTime_returns_iff (t := t) (cols := i :: is) hk hc (timeIdx_last c ps')
  have hM := transitions_returns_iff (i := i) (rows := t.rows) (cols := (i + s.total) :: i :: is) hk hc (transIdx_last c ps')
  -- the slot of a row
  have hcode : ∀ r ∈ t.rows, tcode t.origCols (i :: is) (buildTimeScalarIndexing c ps') r =
      .ok ((natState s r n + parentSlot ps' ((parentsOf g n).map (natState s r)) : Nat) : ℤ) := by
    intro r hr
    have := rowIndex_time (ps := ps') hc (select_time hw ht hn hls hcn e2 e4 hr)
    rw [strideSum_eq_slot, Nat.one_mul] at this
    exact this
  have hstat : ∀ r ∈ t.rows, ∀ (x : Nat) (u : List Nat), (stateOf s r n = some (x : ℤ) ∧
        (parentsOf g n).map (stateOf s r) = u.map (fun v : Nat => some (v : ℤ))) ↔ natState s r n = x ∧ (parentsOf g n).map (natState s r) = u := by
    intro r hr x u
    rw [← rowMatches_iff hw ht hr hn hls]
    simp [rowMatches]
  constructor
  · rintro ⟨sofc, h⟩ r hr x u hx hu
    rw [e5 t] at h
    cases h1 : computeStateResTime t.times t.trajectory (i :: is) (buildTimeScalarIndexing c ps') ps'.prod c with
    | error e => rw [h1] at h; cases h
    | ok T =>
      have := (((hT T).1 h1).2.1 r hr).2.2
      rw [hcode r hr] at this
      obtain ⟨q1, q2⟩ := (hstat r hr x u).1 ⟨hx, hu⟩
      rw [q1, q2] at this
      have := Int.ofNat_lt.1 this
      rw [Nat.mul_comm]; exact this
  · intro H
    have hlt : ∀ r ∈ t.rows, natState s r n + parentSlot ps' ((parentsOf g n).map (natState s r)) < ps'.prod * c := by
      intro r hr
      obtain ⟨h1, h2⟩ := (hstat r hr _ _).2 ⟨rfl, rfl⟩
      rw [Nat.mul_comm]
      exact H r hr _ _ h1 h2
    rw [e5 t, (hT _).2 ⟨ht.len, ?_, rfl⟩, (hM _).2 ⟨?_, rfl⟩]
    · exact ⟨_, rfl⟩
    · intro r hr
      rcases ht.nxt r hr n hn c hcn with hx | ⟨x, hx, hxc⟩
      · have hnc : ncode i r = .ok (-1) := by
          rw [ncode, pyGet_ok, ht.width r hr, Nat.mul_div_cancel_left _ (by omega), ← nextOf_eq e2]
          exact hx
        rw [hnc]
        exact ⟨rfl, fun h => absurd h (by decide)⟩
      · have hnc : ncode i r = .ok (x : ℤ) := by
          rw [ncode, pyGet_ok, ht.width r hr, Nat.mul_div_cancel_left _ (by omega), ← nextOf_eq e2]
          exact hx
        refine ⟨by rw [hnc]; rfl, fun _ => ?_⟩
        have := rowIndex_trans hc (ps := ps') (select_trans hw ht hn hls e2 e4 hr hx)
        rw [strideSum_eq_slot, Nat.one_mul] at this
        rw [this]
        refine ⟨rfl, Int.natCast_nonneg _, Int.ofNat_lt.2 ?_⟩
        have hq := hlt r hr
        set q := natState s r n + parentSlot ps' ((parentsOf g n).map (natState s r))
        calc x + c * q < c + c * q := by omega
          _ = c * (q + 1) := by ring
          _ ≤ c * (ps'.prod * c) := Nat.mul_le_mul_left _ hq
          _ = ps'.prod * c * c := by ring
    · intro r hr
      rw [hcode r hr]
      exact ⟨rfl, Int.natCast_nonneg _, Int.ofNat_lt.2 (hlt r hr)⟩

/-- **C120.**  For a node with `c` states and parents with cardinalities `ps` (in label order): estimating its parameters returns for every
well-formed data set if and only if `(c-1) + (p₁-1)·p₁ + ⋯ + (p_k-1)·p₁⋯p_k < c·p₁⋯p_k`. -/
theorem estimation_never_raises_iff (s : Structure) (g : NetworkGraph) (hg : Reach s g) (hpos : PosCards s) (ho : OwnColumns s) (n : Label)
    (hn : n ∈ s.labels) (c : Nat) (hcn : s.getStatesNumber n = .ok c) (ps : List Nat)
    (hps : ps.map Except.ok = (parentsOf g n).map s.getStatesNumber) :
    (∀ t, DataOK s t → ∃ sofc, ParamsEst.estimate t g n = .ok sofc) ↔ (c - 1) + topParentSlot ps < c * ps.prod := by
  obtain ⟨hI, hs⟩ := hg.inv
  have hw : WFStructure s := hs ▸ hI.cs.toWFStructure
  have hls : ∀ x ∈ parentsOf g n, x ∈ s.labels := fun x hx => hs ▸ mem_parentsOf hx
  constructor
  · intro H
    let σ : Label → Nat := fun l => match s.getStatesNumber l with | .ok v => v - 1 | .error _ => 0
    have hok : DataOK s (stateData s [σ]) := by
      apply stateData_ok hw ho
      intro σ' hσ l hl v hv
      rw [List.mem_singleton.1 hσ]
      obtain ⟨w, hw', e⟩ := getStatesNumber_mem hw hl
      rw [hv] at e; cases e
      have := hpos v hw'
      simp only [σ, hv]; omega
    have hr : stateRow s σ ∈ (stateData s [σ]).rows := by simp [stateData]
    have h1 := (estimate_returns_on s g hg hpos n hn c hcn ps hps _ hok).1 (H _ hok) _ hr (σ n) ((parentsOf g n).map σ)
      (stateRow_states hw ho σ hn).1 (by
        rw [List.map_map]
        exact List.map_congr_left (fun l hl => (stateRow_states hw ho σ (hls l hl)).1))
    have hu : (parentsOf g n).map σ = ps.map (· - 1) := by
      apply List.map_injective_iff.2 (fun _ _ h => Except.ok.inj h : Function.Injective (Except.ok : Nat → Py Nat))
      have := congrArg (List.map (fun p : Py Nat => p.map (· - 1))) hps
      rw [List.map_map, List.map_map] at this
      rw [List.map_map, List.map_map]
      refine Eq.trans ?_ this.symm
      apply List.map_congr_left
      intro l hl
      obtain ⟨v, -, hv⟩ := getStatesNumber_mem hw (hls l hl)
      simp only [Function.comp, σ, hv]; rfl
    have hσn : σ n = c - 1 := by simp only [σ, hcn]
    rw [hu, parentSlot_top, hσn] at h1
    exact h1
  · intro h t ht
    rw [estimate_returns_on s g hg hpos n hn c hcn ps hps t ht]
    intro r hr x u hx hu
    have hm : rowMatches s n (parentsOf g n) x u r = true := by simp [rowMatches, hx, hu]
    obtain ⟨q1, q2⟩ := (rowMatches_iff hw ht hr hn hls x u).1 hm
    have h1 := (natState_spec hw ht hr hn hcn).2
    have h2 := parentSlot_le (inRange_states hw ht hr hls hps)
    rw [q1] at h1
    rw [q2] at h2
    omega

/-- Two parents with 5 and 2 states of a child with 4: no exception, although the slots of different states collide (C94). With one parent of 5 states
there is data that raises. -/
example : (4 - 1) + topParentSlot [5, 2] < 4 * [5, 2].prod ∧ ¬ ExactCards 4 [5, 2] ∧ ¬ ((4 - 1) + topParentSlot [5] < 4 * [5].prod) := by
  refine ⟨by decide, ?_, by decide⟩
  rintro ⟨h, -⟩
  have := h 5 (by simp)
  omega

/-- The theorem applied to a binary variable with a binary parent. -/
example : ∀ t, DataOK exS2 t → ∃ sofc, ParamsEst.estimate t (NetworkGraph.new exS2) "X" = .ok sofc :=
  (estimation_never_raises_iff exS2 _ exG2_reach (by unfold PosCards; decide) ⟨by decide, by decide⟩ "X" (by decide) 2 rfl [2] rfl).2 (by decide)

/-! ## C121: what is estimated for arbitrary cardinalities -/

/-- The slot the code gives to a row. -/
def Spec.slotOf (s : Structure) (n : Label) (parents : List Label) (ps : List Nat) (row : List ℤ) : Nat :=
  natState s row n + parentSlot ps (parents.map (natState s row))

/-- Total duration of the rows with slot `q`. -/
def Spec.slotTime (s : Structure) (t : Trajectory) (n : Label) (parents : List Label) (ps : List Nat) (q : Nat) : ℚ :=
  (((t.times.zip t.rows).filter (fun r => decide (slotOf s n parents ps r.2 = q))).map Prod.fst).sum

/-- Number of rows with slot `q` after which the variable is in state `y`. -/
def Spec.slotMoves (s : Structure) (t : Trajectory) (n : Label) (parents : List Label) (ps : List Nat) (q y : Nat) : Nat :=
  (t.rows.filter (fun r => decide (slotOf s n parents ps r = q) && decide (nextOf s r n = some (y : ℤ)))).length

/-- The statistics the code collects in its `r`-th CIM. -/
def Spec.slotStats (s : Structure) (t : Trajectory) (n : Label) (parents : List Label) (ps : List Nat) (c r : Nat) : Stats where
  time x := slotTime s t n parents ps (r * c + x)
  count x y := if x = y then ∑ z ∈ (Finset.range c).erase x, slotMoves s t n parents ps (r * c + x) z
    else slotMoves s t n parents ps (r * c + x) y

/-- **C121**, in one formula. -/
theorem estimation_by_slots (s : Structure) (g : NetworkGraph) (hg : Reach s g) (hpos : PosCards s) (n : Label)
    (hn : n ∈ s.labels) (c : Nat) (hcn : s.getStatesNumber n = .ok c) (ps : List Nat)
    (hps : ps.map Except.ok = (parentsOf g n).map s.getStatesNumber) (t : Trajectory) (ht : DataOK s t) (sofc : SetOfCims)
    (h : ParamsEst.estimate t g n = .ok sofc) :
    sofc.pCombs = meshRest (swapFirstTwo ps) ∧ ∃ q : Nat → List (List ℚ),
      sofc.cims = cimsFor c ((List.range ps.prod).map (fun r => (slotStats s t n (parentsOf g n) ps c r, q r))) := by
  obtain ⟨hI, hs⟩ := hg.inv
  have hw : WFStructure s := hs ▸ hI.cs.toWFStructure
  have hval : ∀ l ∈ s.labels, ∀ v, s.getStatesNumber l = .ok v → 0 < v := by
    intro l hl v hv
    obtain ⟨w, hw', e⟩ := getStatesNumber_mem hw hl
    rw [hv] at e; cases e; exact hpos v hw'
  have hc : 0 < c := hval n hn c hcn
  have hls : ∀ x ∈ parentsOf g n, x ∈ s.labels := fun x hx => hs ▸ mem_parentsOf hx
  obtain ⟨c', i, ps', is, e1, e2, e3, e4, e5⟩ := estimate_unfold hg hn
  rw [hcn] at e1; cases e1
  have : ps' = ps := (List.map_injective_iff.2 (fun _ _ h => Except.ok.inj h)) (e3.trans hps.symm)
  subst this
  have hpp : ∀ p ∈ ps', 0 < p := by
    intro p hp
    have : Except.ok p ∈ (parentsOf g n).map s.getStatesNumber := by rw [← e3]; exact List.mem_map_of_mem hp
    obtain ⟨l, hl, hlv⟩ := List.mem_map.1 this
    exact hval l (hls l hl) p hlv
  have hk : 0 < ps'.prod := prod_pos_of_pos hpp
  have hT := resTime_returns_iff (t := t) (cols := i :: is) hk hc (timeIdx_last c ps')
  have hM := transitions_returns_iff (i := i) (rows := t.rows) (cols := (i + s.total) :: i :: is) hk hc (transIdx_last c ps')
  have hcode : ∀ r ∈ t.rows, tcode t.origCols (i :: is) (buildTimeScalarIndexing c ps') r =
      .ok ((slotOf s n (parentsOf g n) ps' r : Nat) : ℤ) := by
    intro r hr
    have := rowIndex_time (ps := ps') hc (select_time hw ht hn hls hcn e2 e4 hr)
    rw [strideSum_eq_slot, Nat.one_mul] at this
    exact this
  have htime : ∀ q, timeEntry t.origCols (i :: is) (buildTimeScalarIndexing c ps') (t.times.zip t.rows) q
      = slotTime s t n (parentsOf g n) ps' q := by
    intro q
    unfold timeEntry slotTime
    rw [List.filter_congr]
    intro r hr
    rw [hcode _ (List.of_mem_zip hr).2]
    simp only [okVal, Nat.cast_inj]
  have hmove : ∀ q y, y < c → transEntry i ((i + s.total) :: i :: is) (buildTransitionScalarIndexing c ps') t.rows (q * c + y)
      = slotMoves s t n (parentsOf g n) ps' q y := by
    intro q y hy
    unfold transEntry slotMoves
    rw [List.filter_congr]
    intro r hr
    have hnc : ∀ z, nextOf s r n = some z → ncode i r = .ok z := by
      intro z hz
      rw [ncode, pyGet_ok, ht.width r hr, Nat.mul_div_cancel_left _ (by omega), ← nextOf_eq e2]
      exact hz
    rcases ht.nxt r hr n hn c hcn with hx | ⟨x, hx, hxc⟩
    · rw [hnc _ hx, hx]
      have : ((-1 : ℤ) = (y : ℤ)) ↔ False := by constructor
                                                · intro h; omega
                                                · exact False.elim
      simp [okVal, this]
    · rw [hnc _ hx, hx]
      have hri := rowIndex_trans hc (ps := ps') (select_trans hw ht hn hls e2 e4 hr hx)
      rw [strideSum_eq_slot, Nat.one_mul] at hri
      rw [hri]
      simp only [okVal, Nat.cast_inj, Int.natCast_nonneg, decide_true, Bool.true_and, Option.some.injEq]
      rw [Bool.eq_iff_iff]
      simp only [Bool.and_eq_true, decide_eq_true_eq]
      rw [code_eq_iff hxc hy]
      unfold slotOf
      exact And.comm
  rw [e5 t] at h
  cases h1 : computeStateResTime t.times t.trajectory (i :: is) (buildTimeScalarIndexing c ps') ps'.prod c with
  | error e => rw [h1] at h; cases h
  | ok T =>
    rw [h1] at h
    simp only [Except.bind_ok'] at h
    cases h2 : computeStateTransitions i t.rows ((i + s.total) :: i :: is) (buildTransitionScalarIndexing c ps') ps'.prod c with
    | error e => rw [h2] at h; cases h
    | ok M =>
      rw [h2] at h
      simp only [Except.bind_ok', Except.ok.injEq] at h
      obtain ⟨a1, a2, a3⟩ := (hT T).1 h1
      obtain ⟨b1, b2⟩ := (hM M).1 h2
      subst h
      refine ⟨buildPCombs_closed ps', fun r => cimCoefficients ((List.range c).map (slotStats s t n (parentsOf g n) ps' c r).time)
        ((List.range c).map (fun x => (List.range c).map ((slotStats s t n (parentsOf g n) ps' c r).count x))), ?_⟩
      dsimp only
      rw [a3, b2, List.zipWith_map, List.zipWith_self]
      unfold cimsFor
      rw [List.map_map]
      apply List.map_congr_left
      intro r hr
      simp only [Function.comp, Cim.build, Stats.toCim, Cim.mk.injEq]
      have q1 : (List.range c).map (fun x => timeEntry t.origCols (i :: is) (buildTimeScalarIndexing c ps') (t.times.zip t.rows) (r * c + x))
          = (List.range c).map (slotStats s t n (parentsOf g n) ps' c r).time := by
        apply List.map_congr_left
        intro x _
        rw [htime]; rfl
      have q2 : (List.range c).map (fun x => (List.range c).map (fun x' =>
            if x = x' then ((List.range c).map (fun y => if x = y then 0 else
              transEntry i ((i + s.total) :: i :: is) (buildTransitionScalarIndexing c ps') t.rows ((r * c + x) * c + y))).sum
            else transEntry i ((i + s.total) :: i :: is) (buildTransitionScalarIndexing c ps') t.rows ((r * c + x) * c + x')))
          = (List.range c).map (fun x => (List.range c).map ((slotStats s t n (parentsOf g n) ps' c r).count x)) := by
        apply List.map_congr_left
        intro x _
        apply List.map_congr_left
        intro y hy
        have hy := List.mem_range.1 hy
        unfold slotStats
        dsimp only
        by_cases hxy : x = y
        · rw [if_pos hxy, if_pos hxy, sum_range_skip]
          apply Finset.sum_congr rfl
          intro z hz
          rw [hmove _ _ (Finset.mem_range.1 (Finset.mem_erase.1 hz).2)]
        · rw [if_neg hxy, if_neg hxy, hmove _ _ hy]
      rw [q1, q2]
      exact ⟨rfl, rfl, rfl⟩

/-- **C121.**  Whatever the cardinalities, when estimation of a node with `c` states and parent cardinalities `p₁, …, p_k` returns: there are
`p₁⋯p_k` CIMs; the `r`-th holds for state `x` the total duration of the rows with slot `r·c + x`, and for `x ≠ y` the number of those
after which the variable is in state `y`; beside the CIMs stand the assignments of the cardinalities `p₂, p₁, p₃, …, p_k` (the first two
exchanged), first entry fastest. -/
theorem estimation_general (s : Structure) (g : NetworkGraph) (hg : Reach s g) (hpos : PosCards s) (n : Label)
    (hn : n ∈ s.labels) (c : Nat) (hcn : s.getStatesNumber n = .ok c) (ps : List Nat)
    (hps : ps.map Except.ok = (parentsOf g n).map s.getStatesNumber) (t : Trajectory) (ht : DataOK s t) (sofc : SetOfCims)
    (h : ParamsEst.estimate t g n = .ok sofc) :
    sofc.cims.length = ps.prod ∧
    (∀ r cim, sofc.cims[r]? = some cim → ∀ x, x < c →
      cim.resTimes[x]? = some (slotTime s t n (parentsOf g n) ps (r * c + x)) ∧
      ∀ y, y < c → x ≠ y → entry2 cim.trans x y = some (slotMoves s t n (parentsOf g n) ps (r * c + x) y)) ∧
    ∀ r u, sofc.pCombs[r]? = some u ↔ InRangeAssign (swapFirstTwo ps) u ∧ rank (swapFirstTwo ps) u = r := by
  obtain ⟨h1, q, h2⟩ := estimation_by_slots s g hg hpos n hn c hcn ps hps t ht sofc h
  refine ⟨by rw [h2]; simp [cimsFor], ?_, ?_⟩
  · intro r cim hr x hx
    rw [h2, cimsFor, List.map_map, List.getElem?_map] at hr
    cases hrr : (List.range ps.prod)[r]? with
    | none => rw [hrr] at hr; simp at hr
    | some r' =>
      have : r' = r := by
        have := (List.getElem?_eq_some_iff.1 hrr).2
        simpa using this.symm
      subst this
      rw [hrr] at hr
      simp only [Option.map_some, Option.some.injEq, Function.comp] at hr
      subst hr
      refine ⟨?_, ?_⟩
      · simp [Stats.toCim, slotStats, hx]
      · intro y hy hxy
        simp [entry2, Stats.toCim, slotStats, hx, hy, hxy]
  · intro r u
    rw [h1]
    exact meshRest_getElem?

/-- The data of `residence_times_wrong_example` in the language of slots: the parent has 2 states, the child 3; the rows of states (0, 1)
and (2, 0) of (child, parent) have the same slot. -/
example : 0 + parentSlot [2] [1] = 2 + parentSlot [2] [0] := by decide

example : ∃ sofc, ParamsEst.estimate exT2 (NetworkGraph.new exS2) "X" = .ok sofc ∧ DataOK exS2 exT2 ∧ sofc.cims.length = 2 := by
  obtain ⟨sofc, h⟩ := (estimation_never_raises_iff exS2 _ exG2_reach (by unfold PosCards; decide) ⟨by decide, by decide⟩ "X" (by decide) 2 rfl
    [2] rfl).2 (by decide) exT2 exT2_ok
  exact ⟨sofc, h, exT2_ok, (estimation_general exS2 _ exG2_reach (by unfold PosCards; decide) "X" (by decide) 2 rfl [2] rfl exT2 exT2_ok sofc h).1⟩

end PyCTBN
