import Verif.Props.RawExact
import Verif.Props.Possible

/-!
# C217: for which cardinalities the statistics of sampled trajectories are right
-/

namespace PyCTBN
open Spec

/-- Being right on one data set per parent with several states, in whose rows that parent is in state 1 or all variables are in state 0, already forces
the cardinalities. -/
theorem exactCards_of_some (s : Structure) (g : NetworkGraph) (hg : Reach s g) (hpos : PosCards s) (ho : OwnColumns s) (n : Label)
    (hn : n ∈ s.labels) (c : Nat) (hcn : s.getStatesNumber n = .ok c) (ps : List Nat)
    (hps : ps.map Except.ok = (parentsOf g n).map s.getStatesNumber)
    (h : ∀ b ∈ parentsOf g n, ∀ p, s.getStatesNumber b = .ok p → 1 < p → ∃ t, DataOK s t ∧ EstimatesExactly s g n c ps t ∧
      (∀ r ∈ t.rows, (∀ l ∈ s.labels, natState s r l = 0) ∨ ∀ l ∈ s.labels, natState s r l = if l = b then 1 else 0) ∧
      (b ≠ n → residence s t n (parentsOf g n) 0 ((parentsOf g n).map (fun l => if l = b then 1 else 0)) ≠ 0)) : ExactCards c ps := by
  obtain ⟨hI, hs⟩ := hg.inv
  have hw : WFStructure s := hs ▸ hI.cs.toWFStructure
  have hval : ∀ l ∈ s.labels, ∀ v, s.getStatesNumber l = .ok v → 0 < v := by
    intro l hl v hv
    obtain ⟨w, hw', e⟩ := getStatesNumber_mem hw hl
    rw [hv] at e; cases e; exact hpos v hw'
  have hc : 0 < c := hval n hn c hcn
  have hls : ∀ x ∈ parentsOf g n, x ∈ s.labels := fun x hx => hs ▸ mem_parentsOf hx
  obtain ⟨c', i, ps', is, e1, e2, e3, e4, e5⟩ := estimate_unfold hg hn
  rw [hcn] at e1; cases e1
  have : ps' = ps := (List.map_injective_iff.2 (fun _ _ h => Except.ok.inj h)) (e3.trans hps.symm)
  subst this
  have hpp : ∀ p ∈ ps', 0 < p := by
    intro p hp
    have : Except.ok p ∈ (parentsOf g n).map s.getStatesNumber := by rw [← e3]; exact List.mem_map_of_mem hp
    obtain ⟨l, hl, hlv⟩ := List.mem_map.1 this
    exact hval l (hls l hl) p hlv
  have hk : 0 < ps'.prod := prod_pos_of_pos hpp
  have hT := fun t => resTime_returns_iff (t := t) (cols := i :: is) hk hc (timeIdx_last c ps')
  -- what is returned
  have hret : ∀ t sofc, ParamsEst.estimate t g n = .ok sofc → sofc.pCombs = buildPCombs ps' ∧
      ∀ (r : Nat) (cim : Cim), sofc.cims[r]? = some cim → cim.resTimes = (List.range c).map (fun x =>
        timeEntry t.origCols (i :: is) (buildTimeScalarIndexing c ps') (t.times.zip t.rows) (r * c + x)) := by
    intro t sofc h
    rw [e5 t] at h
    cases h1 : computeStateResTime t.times t.trajectory (i :: is) (buildTimeScalarIndexing c ps') ps'.prod c with
    | error e => rw [h1] at h; cases h
    | ok T =>
      rw [h1] at h
      simp only [Except.bind_ok'] at h
      cases h2 : computeStateTransitions i t.rows ((i + s.total) :: i :: is) (buildTransitionScalarIndexing c ps') ps'.prod c with
      | error e => rw [h2] at h; cases h
      | ok M =>
        rw [h2] at h
        simp only [Except.bind_ok', Except.ok.injEq] at h
        obtain ⟨a1, a2, a3⟩ := (hT t T).1 h1
        subst h
        refine ⟨rfl, ?_⟩
        intro r cim hr
        dsimp only at hr
        rw [List.getElem?_zipWith, a3, List.getElem?_map] at hr
        cases hrr : (List.range ps'.prod)[r]? with
        | none => rw [hrr] at hr; simp at hr
        | some r' =>
          have : r' = r := by
            have := (List.getElem?_eq_some_iff.1 hrr).2
            simpa using this.symm
          subst this
          rw [hrr] at hr
          cases hM : M[r']? with
          | none => rw [hM] at hr; simp at hr
          | some m =>
            rw [hM] at hr
            simp only [Option.map_some, Option.some.injEq] at hr
            rw [← hr]; rfl
  -- the assignments
  have hpair : ∀ p q rest, ps' = p :: q :: rest → p = q := by
    rintro p q rest rfl
    by_contra hpq
    obtain ⟨b, hb, v, hv, hv1⟩ : ∃ b ∈ parentsOf g n, ∃ v, s.getStatesNumber b = .ok v ∧ 1 < v := by
      have hp0 : 0 < p := hpp p (by simp)
      have hq0 : 0 < q := hpp q (by simp)
      have hm : ∀ v ∈ p :: q :: rest, ∃ b ∈ parentsOf g n, s.getStatesNumber b = .ok v := by
        intro v hv
        have : Except.ok v ∈ (parentsOf g n).map s.getStatesNumber := by rw [← e3]; exact List.mem_map_of_mem hv
        obtain ⟨l, hl, hlv⟩ := List.mem_map.1 this
        exact ⟨l, hl, hlv⟩
      by_cases h1 : 1 < p
      · obtain ⟨b, hb, hbv⟩ := hm p (by simp)
        exact ⟨b, hb, p, hbv, h1⟩
      · obtain ⟨b, hb, hbv⟩ := hm q (by simp)
        exact ⟨b, hb, q, hbv, by omega⟩
    obtain ⟨t₀, -, ⟨sofc, s1, s2, -⟩, -⟩ := h b hb v hv hv1
    apply hpq
    rw [(hret _ _ s1).1] at s2
    have hsw : ∀ u, InRangeAssign (p :: q :: rest) u → InRangeAssign (q :: p :: rest) u := by
      intro u hu
      have := (s2 u).2 hu
      rw [show buildPCombs (p :: q :: rest) = meshRest (q :: p :: rest) from buildPCombs_closed _] at this
      obtain ⟨r, hr⟩ := List.mem_iff_getElem?.1 this
      exact (meshRest_getElem?.1 hr).1
    have hp0 : 0 < p := hpp p (by simp)
    have hq0 : 0 < q := hpp q (by simp)
    have hz := inRange_swap_zeros (rest := rest) (fun x hx => hpp x (by simp [hx]))
    rcases Nat.lt_trichotomy p q with hlt | heq | hgt
    · have := hsw (0 :: p :: rest.map (fun _ => 0)) (List.Forall₂.cons hp0 (List.Forall₂.cons hlt hz))
      cases this with | cons _ h2 => cases h2 with | cons h3 _ => omega
    · exact heq
    · have := hsw (q :: 0 :: rest.map (fun _ => 0)) (List.Forall₂.cons hgt (List.Forall₂.cons hq0 hz))
      cases this with | cons h1 _ => omega
  refine ⟨?_, hpair⟩
  -- the cardinalities
  let f : Label → Nat := fun l => match s.getStatesNumber l with | .ok v => v | .error _ => 0
  have hf : ∀ l ∈ s.labels, s.getStatesNumber l = .ok (f l) := by
    intro l hl
    obtain ⟨v, _, hv⟩ := getStatesNumber_mem hw hl
    simp only [f, hv]
  have hpf : ps' = (parentsOf g n).map f := by
    apply List.map_injective_iff.2 (fun _ _ h => Except.ok.inj h : Function.Injective (Except.ok : Nat → Py Nat))
    show ps'.map Except.ok = ((parentsOf g n).map f).map Except.ok
    rw [e3, List.map_map]
    exact List.map_congr_left (fun l hl => hf l (hls l hl))
  intro p hp
  rw [hpf] at hp
  obtain ⟨b, hbp, hpb⟩ := List.mem_map.1 hp
  have hb := hls b hbp
  by_cases h1 : p = 1
  · exact .inl h1
  right
  by_contra hpc
  have hp0 : 0 < p := hval b hb p (by rw [hf b hb, hpb])
  have hbn : b ≠ n := by
    rintro rfl
    have := hf b hb
    rw [hcn, hpb] at this
    cases this
    exact hpc rfl
  obtain ⟨t, hok, ⟨sofc, s1, s2, s3⟩, hrows, hres0⟩ := h b hbp p (by rw [hf b hb, hpb]) (by omega)
  have hspec := hres0 hbn
  obtain ⟨q1, q2⟩ := hret _ _ s1
  let u : List Nat := (parentsOf g n).map (fun l => if l = b then 1 else 0)
  have hu' : ∀ row, (∀ l ∈ s.labels, natState s row l = if l = b then 1 else 0) → (parentsOf g n).map (natState s row) = u :=
    fun row hnat => List.map_congr_left (fun l hl => hnat l (hls l hl))
  have hu : InRangeAssign ps' u := by
    rw [hpf]
    show List.Forall₂ _ _ _
    rw [List.forall₂_map_right_iff, List.forall₂_map_left_iff, List.forall₂_same]
    intro l hl
    by_cases hlb : l = b
    · subst hlb; rw [if_pos rfl, hpb]; omega
    · rw [if_neg hlb]; exact hval l (hls l hl) _ (hf l (hls l hl))
  have hen := p_combs_enumeration_partial ps' hpair
  have hru : sofc.pCombs[rank ps' u]? = some u := by rw [q1]; exact (hen.1 _ u).2 ⟨hu, rfl⟩
  obtain ⟨cim, c1, c2⟩ := s3 _ _ hru
  have hres := c2 0 hc
  rw [q2 _ _ c1, List.getElem?_map, List.getElem?_range hc] at hres
  simp only [Option.map_some, Option.some.injEq, Nat.add_zero] at hres
  -- the code counts no row there
  have hcode : ∀ row ∈ t.rows, ∀ (w : Label → Nat), (∀ l ∈ s.labels, natState s row l = w l) → w n = 0 →
      tcode t.origCols (i :: is) (buildTimeScalarIndexing c ps') row = .ok ((strideSum 1 ps' ((parentsOf g n).map w) : Nat) : ℤ) := by
    intro row hrow w hw' hw0
    have hsel := select_time hw hok hn hls hcn e2 e4 hrow
    rw [List.map_congr_left (g := w) (fun l hl => hw' l (hls l hl)), hw' n hn, hw0] at hsel
    have := rowIndex_time (ps := ps') hc hsel
    rw [Nat.zero_add] at this
    exact this
  have hone := onehot_codes f b (parentsOf g n) (List.Nodup.filter _ (hs ▸ hw.nodup)) hbp (fun l hl => hval l (hls l hl) _ (hf l (hls l hl)))
  rw [← hpf] at hone
  have hne : ¬ (((strideSum 1 ps' u : Nat) : ℤ) = ((rank ps' u * c : Nat) : ℤ)) := by
    intro e
    have e := Int.ofNat_inj.1 e
    have h2 := hone.2 1
    have h3 : strideSum 1 ps' u = 1 * f b * rank ps' u := h2
    rw [h3, Nat.one_mul, hpb, Nat.mul_comm p] at e
    exact hpc (Nat.eq_of_mul_eq_mul_left hone.1 e)
  have hne0 : ¬ (((0 : Nat) : ℤ) = ((rank ps' u * c : Nat) : ℤ)) := by
    intro e
    have e := Int.ofNat_inj.1 e
    have := Nat.mul_pos hone.1 hc
    have h3 : 0 < rank ps' u * c := this
    omega
  have hzero : timeEntry t.origCols (i :: is) (buildTimeScalarIndexing c ps') (t.times.zip t.rows) (rank ps' u * c) = 0 := by
    unfold timeEntry
    have : (t.times.zip t.rows).filter (fun p => decide (okVal (tcode t.origCols (i :: is)
      (buildTimeScalarIndexing c ps') p.2) = ((rank ps' u * c : Nat) : ℤ))) = [] := by
      rw [List.filter_eq_nil_iff]
      intro q hq
      have hrow := (List.of_mem_zip (show (q.1, q.2) ∈ _ from hq)).2
      rcases hrows q.2 hrow with hz | hb1
      · rw [hcode q.2 hrow (fun _ => 0) hz rfl, (zeros_rank ps' _ (by simp)).2 1]
        exact fun e => hne0 (of_decide_eq_true e)
      · rw [hcode q.2 hrow _ hb1 (if_neg (Ne.symm hbn))]
        exact fun e => hne (of_decide_eq_true e)
    rw [this]; rfl
  rw [hzero] at hres
  exact hspec hres.symm

/-- From the initial state every variable can move to state 1. -/
def Spec.Ctbn.FirstMoves (N : Ctbn) : Prop := ∀ v ∈ N.vars, 0 < N.intensity (N.vars.map (fun _ => 0)) v 1

section
variable {net : SampleNet} {N : Ctbn}

/-- The history in which `b` moves to state 1 at time 1 and on to state `y` at time 2. -/
def thereAndOn (N : Ctbn) (b : Label) (y : Nat) : List (ℚ × List Nat) :=
  [(0, N.vars.map (fun _ => 0)), (1, N.vars.map (fun l => if l = b then 1 else 0)), (2, N.vars.map (fun l => if l = b then y else 0))]

theorem state_map {N : Ctbn} (w : Label → Nat) {v : Label} (hv : v ∈ N.vars) : N.state (N.vars.map w) v = w v := by
  unfold Ctbn.state
  rw [List.getElem?_map, List.getElem?_idxOf hv]
  rfl

theorem set_map {vars : List Label} (hn : vars.Nodup) (w : Label → Nat) {v : Label} (hv : v ∈ vars) (y : Nat) :
    (vars.map w).set (vars.idxOf v) y = vars.map (fun l => if l = v then y else w l) := by
  apply List.ext_getElem?
  intro i
  rw [List.getElem?_set, List.getElem?_map, List.getElem?_map]
  split_ifs with h1 h2
  · subst h1
    rw [List.getElem?_idxOf hv]
    simp
  · subst h1
    exact absurd (by simpa using List.idxOf_lt_length_of_mem hv) h2
  · cases hi : vars[i]? with
    | none => rfl
    | some l =>
      have : l ≠ v := by
        rintro rfl
        apply h1
        obtain ⟨h, e⟩ := List.getElem?_eq_some_iff.1 hi
        rw [← e]; exact hn.idxOf_getElem i h
      simp [this]

theorem thereAndOn_possible (hOK : N.OK) (hall : N.FirstMoves) {b : Label} (hb : b ∈ N.vars) (h2 : 1 < N.card b) :
    ∃ y, PossibleHistory N (thereAndOn N b y) := by
  have hin : ∀ w : Label → Nat, (∀ l ∈ N.vars, w l < N.card l) → N.InRange (N.vars.map w) := fun w hw =>
    ⟨by simp, fun v hv => by rw [state_map w hv]; exact hw v hv⟩
  have hr1 : N.InRange (N.vars.map (fun l => if l = b then 1 else 0)) := hin _ (fun l hl => by
    by_cases h : l = b
    · subst h; rw [if_pos rfl]; exact h2
    · rw [if_neg h]; exact hOK.pos l hl)
  obtain ⟨y, y1, y2, y3⟩ : ∃ y, y < N.card b ∧ y ≠ 1 ∧ 0 < N.intensity (N.vars.map (fun l => if l = b then 1 else 0)) b y := by
    have := (hOK.cims b hb (N.parentStates (N.vars.map (fun l => if l = b then 1 else 0)) b) (by
      unfold Ctbn.parentCards Ctbn.parentStates
      show List.Forall₂ _ _ _
      rw [List.forall₂_map_right_iff, List.forall₂_map_left_iff, List.forall₂_same]
      exact fun p hp => hr1.2 p (hOK.closed b hb p hp))).leaves 1 h2
    obtain ⟨y, y1, y2, y3⟩ := this
    refine ⟨y, y1, y2, ?_⟩
    unfold Ctbn.intensity
    rw [state_map _ hb, if_pos rfl]
    exact y3
  refine ⟨y, rfl, ?_, ?_, ?_⟩
  · intro r hr
    simp only [thereAndOn, List.mem_cons, List.not_mem_nil, or_false] at hr
    rcases hr with rfl | rfl | rfl
    · exact_mod_cast fourDecimals_int 0
    · exact_mod_cast fourDecimals_int 1
    · exact_mod_cast fourDecimals_int 2
  · simp [thereAndOn]
  · have hi : N.vars[N.vars.idxOf b]? = some b := List.getElem?_idxOf hb
    intro n u v hu hv
    match n with
    | 0 =>
      simp only [thereAndOn, List.getElem?_cons_zero, List.getElem?_cons_succ, Option.some.injEq] at hu hv
      subst hu; subst hv
      have hne : (1 : Nat) ≠ N.state (N.vars.map (fun _ => 0)) b := by rw [state_map _ hb]; omega
      exact ⟨_, b, 1, hi, h2, hne, hall b hb, (set_map hOK.nodup _ hb 1).symm⟩
    | 1 =>
      simp only [thereAndOn, List.getElem?_cons_zero, List.getElem?_cons_succ, Option.some.injEq] at hu hv
      subst hu; subst hv
      have hne : y ≠ N.state (N.vars.map (fun l => if l = b then 1 else 0)) b := by rw [state_map _ hb, if_pos rfl]; exact y2
      refine ⟨_, b, y, hi, y1, hne, y3, ?_⟩
      show _ = (N.vars.map _).set _ _
      rw [set_map hOK.nodup _ hb y]
      apply List.map_congr_left
      intro l _
      by_cases h : l = b <;> simp [h]
    | n + 2 => simp [thereAndOn] at hv

/-- The data rows of the recorded history. -/
theorem built_thereAndOn (N : Ctbn) (b : Label) (y : Nat) : (builtTraj N.vars [recorded (thereAndOn N b y)]).times = [1, 1] ∧
    (builtTraj N.vars [recorded (thereAndOn N b y)]).rows =
      [N.vars.map (fun _ => (0 : ℤ)) ++ N.vars.map (fun l => if l = b then (1 : ℤ) else 0),
       N.vars.map (fun l => if l = b then (1 : ℤ) else 0) ++ N.vars.map (fun _ => (-1 : ℤ))] := by
  have hr : recorded (thereAndOn N b y) = [(0, N.vars.map (fun _ => (0 : ℤ))), (1, N.vars.map (fun l => if l = b then (1 : ℤ) else 0)),
      (2, N.vars.map (fun _ => (-1 : ℤ)))] := by
    unfold recorded thereAndOn
    simp [Function.comp_def]
  constructor
  · show durations _ = _
    rw [hr]
    unfold durations consecutive
    norm_num
  · show stepRows _ = _
    rw [hr]
    unfold stepRows consecutive
    simp

/-- If the cardinalities are not admissible, some trajectory of three rows, sampled with `max_tr = 2` and positive draws, is imported but gives
wrong statistics (or none). -/
theorem sampled_statistics_fail (hD : Describes net N) (hOK : N.OK) (hrate : ∀ vals, N.InRange vals → ∀ v ∈ N.vars, 0 < N.exitRate vals v)
    (hall : N.FirstMoves) (hcl : NoSuffixClash N.vars) (hT : "Time" ∉ N.vars) (es : List Edge) (g : NetworkGraph)
    (hg : Reach (builtStruct N.vars (N.vars.map N.card) es) g) (n : Label) (hn : n ∈ N.vars) (c : Nat)
    (hcn : (builtStruct N.vars (N.vars.map N.card) es).getStatesNumber n = .ok c) (ps : List Nat)
    (hps : ps.map Except.ok = (parentsOf g n).map (builtStruct N.vars (N.vars.map N.card) es).getStatesNumber) (hex : ¬ ExactCards c ps) :
    ∃ (rows : RawTraj) (draws : SampleDraws) (p : SamplePath) (t : Trajectory), (∀ n i, 0 < draws.exp n i) ∧ Samples net (-1) 2 draws rows ∧
      rows.length = 3 ∧
      buildFromRaw [SampleNet.frame N.vars rows] ⟨List.range N.vars.length, N.vars, N.vars.map N.card⟩ es = .ok p ∧ p.trajectories = some t ∧
      ¬ RawStatistics N.vars [rows] t g n c ps := by
  classical
  by_contra hno
  push Not at hno
  apply hex
  obtain ⟨hI, hs⟩ := hg.inv
  set s := builtStruct N.vars (N.vars.map N.card) es with hsdef
  have hw : WFStructure s := hs ▸ hI.cs.toWFStructure
  have hpar : ∀ p ∈ parentsOf g n, p ∈ N.vars := by
    intro p hp
    have := mem_parentsOf hp
    rw [hs] at this; exact this
  refine exactCards_of_some s g hg (fun v hv => ?_) (built_ownColumns _ _ _) n hn c hcn ps hps ?_
  · obtain ⟨l, hl, rfl⟩ := List.mem_map.1 (show v ∈ N.vars.map N.card from hv)
    exact hOK.pos l hl
  intro b hbp v hv hv1
  have hb := hpar b hbp
  have hcard : v = N.card b := by
    have h1 : (builtStruct N.vars (N.vars.map N.card) es).getStatesNumber b = .ok v := hv
    unfold Structure.getStatesNumber builtStruct at h1
    dsimp only at h1
    rw [pyIndex_of_mem hb] at h1
    have h1 := pyGet_ok.1 h1
    rw [List.getElem?_map, List.getElem?_idxOf hb] at h1
    exact (Option.some.inj h1).symm
  subst hcard
  obtain ⟨y, hh⟩ := thereAndOn_possible hOK hall hb hv1
  obtain ⟨draws, d1, d2⟩ := (possible_samples hD hOK hrate 2 (recorded (thereAndOn N b y))).2
    ((possible_samples hD hOK hrate 2 _).1.2 ⟨_, hh, rfl, rfl⟩)
  have hlen3 : (recorded (thereAndOn N b y)).length = 3 := by simp [recorded, thereAndOn]
  obtain ⟨p, p1, p2, p3, p4⟩ := sampled_builds_data hD hOK hcl hT (samples := [recorded (thereAndOn N b y)])
    (by intro rows hr; rw [List.mem_singleton] at hr; subst hr; exact ⟨_, _, _, d2⟩)
    ⟨_, List.mem_singleton_self _, by rw [hlen3]; omega⟩ es
  have hst := hno _ draws p _ d1 d2 hlen3 p1 p3
  have hwid : ∀ q ∈ [recorded (thereAndOn N b y)].flatMap consecutive, q.1.2.length = N.vars.length ∧ q.2.2.length = N.vars.length := by
    have hw := (sample_in_range hD hOK d2).1
    intro q hq
    obtain ⟨raw, h1, h2⟩ := List.mem_flatMap.1 hq
    rw [List.mem_singleton] at h1
    subst h1
    have := List.of_mem_zip (show (q.1, q.2) ∈ (recorded (thereAndOn N b y)).zip (recorded (thereAndOn N b y)).tail from h2)
    exact ⟨hw _ this.1, hw _ (List.mem_of_mem_tail this.2)⟩
  obtain ⟨r1, r2⟩ := built_thereAndOn N b y
  have hstate : ∀ (w : Label → Nat) (rest : List ℤ) (l : Label), l ∈ N.vars → natState s (N.vars.map (fun l => ((w l : Nat) : ℤ)) ++ rest) l = w l := by
    intro w rest l hl
    unfold natState
    have := stateOf_step (cards := N.vars.map N.card) (es := es) hOK.nodup hl (a := N.vars.map (fun l => ((w l : Nat) : ℤ))) (b := rest) (by simp)
    rw [hsdef]
    unfold builtStruct
    rw [this, List.getElem?_map, List.getElem?_idxOf hl]
    simp
  have hz : ∀ (rest : List ℤ) (l : Label), l ∈ N.vars → natState s (N.vars.map (fun _ => (0 : ℤ)) ++ rest) l = 0 := fun rest l hl => by
    simpa using hstate (fun _ => 0) rest l hl
  have ho : ∀ (rest : List ℤ) (l : Label), l ∈ N.vars → natState s (N.vars.map (fun l => if l = b then (1 : ℤ) else 0) ++ rest) l = if l = b then 1 else 0 :=
    fun rest l hl => by
    have := hstate (fun l => if l = b then 1 else 0) rest l hl
    rw [← this]
    congr 2
    apply List.map_congr_left
    intro l _
    by_cases h : l = b <;> simp [h]
  refine ⟨builtTraj N.vars [recorded (thereAndOn N b y)], p4, ?_, ?_, ?_⟩
  · obtain ⟨sofc, h3, h4, h5⟩ := hst
    refine ⟨sofc, h3, h4, fun r u hru => ?_⟩
    obtain ⟨cim, c1, c2⟩ := h5 r u hru
    refine ⟨cim, c1, fun x hx => ?_⟩
    rw [c2 x hx, ← residence_built (cards := N.vars.map N.card) (es := es) hOK.nodup hwid hn hpar]
  · intro r hr
    rw [r2] at hr
    simp only [List.mem_cons, List.not_mem_nil, or_false] at hr
    rcases hr with rfl | rfl
    · exact .inl (hz _)
    · exact .inr (ho _)
  · intro hbn
    have hm : rowMatches s n (parentsOf g n) 0 ((parentsOf g n).map (fun l => if l = b then 1 else 0))
        (N.vars.map (fun l => if l = b then (1 : ℤ) else 0) ++ N.vars.map (fun _ => (-1 : ℤ))) = true := by
      rw [rowMatches_iff hw p4 (by rw [r2]; simp) hn hpar]
      exact ⟨by rw [ho _ n hn, if_neg (Ne.symm hbn)], List.map_congr_left (fun l hl => ho _ l (hpar l hl))⟩
    unfold residence
    rw [r1, r2]
    simp only [List.zip_cons_cons, List.zip_nil_right, List.filter_cons, List.filter_nil, hm, if_true]
    split_ifs <;> norm_num

/-- **C217.**  For a network in which every variable can move from state 0 to state 1 at the start: the statistics estimated from all sampled trajectories are those of the sampled rows if
and only if every parent has one state or as many as the node, and the first two parents have equally many. -/
theorem sampled_statistics_iff (hD : Describes net N) (hOK : N.OK) (hrate : ∀ vals, N.InRange vals → ∀ v ∈ N.vars, 0 < N.exitRate vals v)
    (hall : N.FirstMoves) (hcl : NoSuffixClash N.vars) (hT : "Time" ∉ N.vars) (es : List Edge) (g : NetworkGraph)
    (hg : Reach (builtStruct N.vars (N.vars.map N.card) es) g) (n : Label) (hn : n ∈ N.vars) (c : Nat)
    (hcn : (builtStruct N.vars (N.vars.map N.card) es).getStatesNumber n = .ok c) (ps : List Nat)
    (hps : ps.map Except.ok = (parentsOf g n).map (builtStruct N.vars (N.vars.map N.card) es).getStatesNumber) :
    (∀ samples : List RawTraj, (∀ rows ∈ samples, ∃ tEnd maxTr draws, (∀ n i, 0 < draws.exp n i) ∧ Samples net tEnd maxTr draws rows) →
        (∃ rows ∈ samples, 2 ≤ rows.length) →
        ∃ (p : SamplePath) (t : Trajectory),
          buildFromRaw (samples.map (SampleNet.frame N.vars)) ⟨List.range N.vars.length, N.vars, N.vars.map N.card⟩ es = .ok p ∧
          p.trajectories = some t ∧ RawStatistics N.vars samples t g n c ps) ↔
      ExactCards c ps := by
  constructor
  · intro h
    by_contra hex
    obtain ⟨rows, draws, p, t, d1, d2, d3, d4, d5, d6⟩ := sampled_statistics_fail hD hOK hrate hall hcl hT es g hg n hn c hcn ps hps hex
    obtain ⟨p', t', k1, k2, k3⟩ := h [rows] (by intro r hr; rw [List.mem_singleton] at hr; subst hr; exact ⟨_, _, _, d1, d2⟩)
      ⟨rows, List.mem_singleton_self _, by omega⟩
    rw [List.map_cons, List.map_nil, d4] at k1
    cases k1
    rw [d5] at k2
    cases k2
    exact d6 k3
  · intro hex samples hs hdata
    obtain ⟨p, s, t, b1, b2, b3, -, -, b4⟩ := sampled_trajectories_estimable_partial hD hOK hcl hT
      (fun rows hr => by obtain ⟨a, b, d, -, h⟩ := hs rows hr; exact ⟨a, b, d, h⟩) hdata es
    obtain ⟨p', c1, c2, -⟩ := sampled_builds_data hD hOK hcl hT
      (fun rows hr => by obtain ⟨a, b, d, -, h⟩ := hs rows hr; exact ⟨a, b, d, h⟩) hdata es
    rw [b1] at c1; cases c1
    rw [b2] at c2; cases c2
    obtain ⟨sofc, d1, -, d3, d4⟩ := b4 g hg n hn c ps hcn hps hex
    refine ⟨p, t, b1, b3, sofc, d1, d3, fun r u hru => ?_⟩
    obtain ⟨cim, e1, e2, -⟩ := d4 r u hru
    exact ⟨cim, e1, e2⟩

end

/-- **C217**, through a file: the same holds when the sampled trajectories are written with `JsonExporter.out_file` and read with `JsonImporter`. -/
theorem sampled_file_statistics_iff {labels : List Label} {table : List Edge} {cims : List (Label × SetOfCims)} {N : Ctbn}
    (hD : Describes (SampleNet.new labels table cims) N) (hOK : N.OK) (hrate : ∀ vals, N.InRange vals → ∀ v ∈ N.vars, 0 < N.exitRate vals v)
    (hall : N.FirstMoves) (hcl : NoSuffixClash N.vars) (hT : "Time" ∉ N.vars) (g : NetworkGraph)
    (hg : Reach (builtStruct N.vars (N.vars.map N.card) table) g) (n : Label) (hn : n ∈ N.vars) (c : Nat)
    (hcn : (builtStruct N.vars (N.vars.map N.card) table).getStatesNumber n = .ok c) (ps : List Nat)
    (hps : ps.map Except.ok = (parentsOf g n).map (builtStruct N.vars (N.vars.map N.card) table).getStatesNumber)
    {enc : ℚ → ℚ} (henc : ∀ q, FourDecimals q → enc q = q) :
    (∀ samples : List RawTraj,
        (∀ rows ∈ samples, ∃ tEnd maxTr draws, (∀ n i, 0 < draws.exp n i) ∧ Samples (SampleNet.new labels table cims) tEnd maxTr draws rows) →
        (∃ rows ∈ samples, 2 ≤ rows.length) →
        ∃ (file : JVal) (p : SamplePath) (t : Trajectory),
          (exporterOf labels (N.vars.map N.card) table cims (samples.map (SampleNet.frame N.vars))).outFile enc = .ok file ∧
          buildFromFile (exportKeys (some "dyn.cims")) file 0 = .ok p ∧ p.trajectories = some t ∧ RawStatistics N.vars samples t g n c ps) ↔
      ExactCards c ps := by
  rw [← sampled_statistics_iff hD hOK hrate hall hcl hT table g hg n hn c hcn ps hps]
  have key : ∀ samples : List RawTraj,
      (∀ rows ∈ samples, ∃ tEnd maxTr draws, (∀ n i, 0 < draws.exp n i) ∧ Samples (SampleNet.new labels table cims) tEnd maxTr draws rows) →
      ∃ file, (exporterOf labels (N.vars.map N.card) table cims (samples.map (SampleNet.frame N.vars))).outFile enc = .ok file ∧
        buildFromFile (exportKeys (some "dyn.cims")) file 0 =
          buildFromRaw (samples.map (SampleNet.frame N.vars)) ⟨List.range N.vars.length, N.vars, N.vars.map N.card⟩ table := by
    intro samples hs
    obtain ⟨json, file, -, h2, h3, -⟩ := exported_file_reads_back hD hOK hT
      (fun rows hr => by obtain ⟨a, b, d, -, h⟩ := hs rows hr; exact ⟨a, b, d, h⟩) henc
    exact ⟨file, h2, buildFromFile_eq h3⟩
  constructor
  · intro h samples hs hdata
    obtain ⟨file, k1, k2⟩ := key samples hs
    obtain ⟨file', p, t, h1, h2, h3, h4⟩ := h samples hs hdata
    rw [k1] at h1
    cases h1
    exact ⟨p, t, k2 ▸ h2, h3, h4⟩
  · intro h samples hs hdata
    obtain ⟨file, k1, k2⟩ := key samples hs
    obtain ⟨p, t, h2, h3, h4⟩ := h samples hs hdata
    exact ⟨file, p, t, k1, k2.trans h2, h3, h4⟩

end PyCTBN
