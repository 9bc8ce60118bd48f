import Verif.Props.Export
import Verif.Props.EndToEnd

/-!
# Generated networks are usable; sampled trajectories are valid input: C74, and the composition of C65-C67 with C68-C71
-/

namespace PyCTBN
open Spec

/-! ## A generated network can be sampled -/

theorem sum_nonpos_rat : ∀ l : List ℚ, (∀ x ∈ l, x ≤ 0) → l.sum ≤ 0
  | [], _ => by simp
  | a :: l, h => by
    rw [List.sum_cons]
    have h1 := h a (by simp)
    have h2 := sum_nonpos_rat l (fun x hx => h x (by simp [hx]))
    linarith

theorem nearIntensity_ok {lo hi : ℚ} {c : Nat} {m : List (List ℚ)} (h : NearIntensity lo hi c m) (hlo : (c + 1 : ℚ) * (5 / 100000) < lo) :
    Ctbn.MatrixOK c m := by
  have hdiag : ∀ i < c, cell m i i ≤ -lo + 5 / 100000 := by
    intro i hi
    obtain ⟨d, d1, d2, d3⟩ := h.diag i hi
    rw [abs_le] at d3
    linarith [d3.2]
  have hc0 : (0 : ℚ) ≤ c := Nat.cast_nonneg c
  refine ⟨h.rows, h.cols, fun i hi => ?_, h.off, fun i hi => ?_⟩
  · have := hdiag i hi
    linarith
  · by_contra hno
    push Not at hno
    have hz : ∀ j < c, j ≠ i → cell m i j ≤ 0 := fun j hj hji => hno j hj hji
    have hs := h.sum i hi
    have hpick := sum_pick hi (fun j => cell m i j) 0
    rw [add_zero] at hpick
    have hle : ((List.range c).map (fun j => if j = i then (0 : ℚ) else cell m i j)).sum ≤ 0 := by
      apply sum_nonpos_rat
      intro x hx
      obtain ⟨j, hj, rfl⟩ := List.mem_map.1 hx
      split
      · simp
      · rename_i hji; exact hz j (List.mem_range.1 hj) hji
    rw [hpick] at hle
    rw [abs_le] at hs
    have := hdiag i hi
    have hs1 := hs.1
    linarith

/-- The states of a label in the generator's tables. -/
def cardOf (labels : List Label) (vals : List Nat) (v : Label) : Nat := (vals[labels.idxOf v]?).getD 0

/-- A network generated by `NetworkGenerator`, when every variable has at least two states, `min_val` exceeds the rounding error and no
variable has first two parents of different cardinality, is a usable network, and the sampler object made of the generator's tables
describes it: its CIMs are those the generator stored, under the assignments it stored them with. -/
theorem generated_network_usable {ng : NetGen} (hne : ng.labels ≠ []) (hn : ng.labels.Nodup) (hv : ng.vals.length = ng.labels.length) {es : List Edge}
    (hes : ∀ e ∈ es, e.1 ∈ ng.labels ∧ e.2 ∈ ng.labels) (hg : ng.graph = some (genGraph ng.labels ng.vals es)) {lo hi : ℚ}
    (hle : lo ≤ hi) {draws : NetGen.CimDraws} (hd : UnitDraws draws) {ng' : NetGen} (h : ng.generateCims lo hi draws = .ok ng')
    (hcard : ∀ c ∈ ng.vals, 2 ≤ c ∧ (c + 1 : ℚ) * (5 / 100000) < lo)
    (hpair : ∀ v ∈ ng.labels, ∀ p q rest, (ng.labels.filter (fun p => decide ((p, v) ∈ es))).map (cardOf ng.labels ng.vals) = p :: q :: rest → p = q) :
    ∃ (N : Ctbn) (table : List Edge) (cims : List (Label × SetOfCims)), ng'.dynStr = .ok table ∧ ng'.cims = some cims ∧
      Describes (SampleNet.new ng'.labels table cims) N ∧ N.OK ∧ N.vars = ng.labels ∧
      (∀ v, N.card v = cardOf ng.labels ng.vals v) ∧ ∀ v, N.parents v = ng.labels.filter (fun p => decide ((p, v) ∈ es)) := by
  obtain ⟨L, k1, k2, k3, k4, k5, k6⟩ := generate_cims_spec hn hv hes hg h
  have hget : ∀ v ∈ ng.labels, ng.vals[ng.labels.idxOf v]? = some (cardOf ng.labels ng.vals v) := by
    intro v hvm
    have : ng.labels.idxOf v < ng.vals.length := by rw [hv]; exact List.idxOf_lt_length_iff.2 hvm
    unfold cardOf
    rw [List.getElem?_eq_getElem this]; rfl
  have hstates : ∀ v ∈ ng.labels, (genStruct ng.labels ng.vals es).getStatesNumber v = .ok (cardOf ng.labels ng.vals v) := by
    intro v hvm
    unfold Structure.getStatesNumber genStruct
    dsimp only
    rw [pyIndex_of_mem hvm]
    exact pyGet_ok.2 (hget v hvm)
  have hnode : ∀ v ∈ ng.labels, ∃ s : SetOfCims, (v, s) ∈ L ∧ s.pCombs = buildPCombs ((ng.labels.filter (fun p => decide ((p, v) ∈ es))).map (cardOf ng.labels ng.vals)) ∧
      s.cims.length = s.pCombs.length ∧ ∀ m ∈ s.cims, NearIntensity lo hi (cardOf ng.labels ng.vals v) m.cim := by
    intro v hvm
    have hl := List.getElem?_idxOf hvm
    obtain ⟨s, cards, j1, j2, j3, j4, j5, j6, j7⟩ := k6 _ v _ hl (hget v hvm)
    have hcards : cards = (ng.labels.filter (fun p => decide ((p, v) ∈ es))).map (cardOf ng.labels ng.vals) := by
      have e : (ng.labels.filter (fun p => decide ((p, v) ∈ es))).map (genStruct ng.labels ng.vals es).getStatesNumber
          = ((ng.labels.filter (fun p => decide ((p, v) ∈ es))).map (cardOf ng.labels ng.vals)).map Except.ok := by
        rw [List.map_map]
        apply List.map_congr_left
        intro p hp
        exact hstates p (List.mem_of_mem_filter hp)
      rw [e] at j3
      exact List.map_injective_iff.2 (fun a b hab => by cases hab; rfl) j3
    refine ⟨s, List.mem_of_getElem? j1, by rw [j5, hcards], by rw [j6, j5, buildPCombs_length], ?_⟩
    intro m hm
    obtain ⟨k, hk⟩ := List.mem_iff_getElem?.1 hm
    have hlt : k < cards.prod := by rw [← j6]; exact (List.getElem?_eq_some_iff.1 hk).1
    obtain ⟨m', e1, e2⟩ := j7 k hlt
    rw [hk] at e1
    cases Option.some.inj e1
    have hcv := hcard _ (List.mem_of_getElem? (hget v hvm))
    refine generated_cim_intensity_partial ?_ hle hcv.1 (hd.1 _ k) (fun a b => (hd.2 _ k a b).1) e2
    have : (0 : ℚ) ≤ (cardOf ng.labels ng.vals v + 1 : ℚ) * (5 / 100000) := by positivity
    linarith [hcv.2]
  have : Nonempty SetOfCims := ⟨⟨"", [], 0, [], false, []⟩⟩
  choose! sf hsf using hnode
  let N : Ctbn := ⟨ng.labels, cardOf ng.labels ng.vals, fun v => ng.labels.filter (fun p => decide ((p, v) ∈ es)), fun v u =>
    (((sf v).cims[rank ((ng.labels.filter (fun p => decide ((p, v) ∈ es))).map (cardOf ng.labels ng.vals)) u]?).map Cim.cim).getD []⟩
  have hst : ∀ v ∈ ng.labels, Stores (N.parentCards v) (N.cim v) (sf v) := by
    intro v hvm
    obtain ⟨s1, s2, s3, s4⟩ := hsf v hvm
    have hen := p_combs_enumeration_partial _ (hpair v hvm)
    have hpc : N.parentCards v = (ng.labels.filter (fun p => decide ((p, v) ∈ es))).map (cardOf ng.labels ng.vals) := rfl
    rw [hpc]
    refine ⟨s3, ?_, ?_, ?_, ?_⟩
    · rw [s2, List.nodup_iff_getElem?_ne_getElem?]
      intro a b hab hb heq
      have hbb := List.getElem?_eq_getElem hb
      have e1 := (hen.1 b _).1 hbb
      have e2 := (hen.1 a _).1 (heq.trans hbb)
      omega
    · intro u
      rw [s2]
      constructor
      · intro hu
        obtain ⟨k, hk⟩ := List.mem_iff_getElem?.1 hu
        exact ((hen.1 k u).1 hk).1
      · intro hu
        exact List.mem_of_getElem? ((hen.1 _ u).2 ⟨hu, rfl⟩)
    · intro k u m hk hm
      rw [s2] at hk
      have := ((hen.1 k u).1 hk).2
      show m.cim = (((sf v).cims[rank ((ng.labels.filter (fun p => decide ((p, v) ∈ es))).map (cardOf ng.labels ng.vals)) u]?).map Cim.cim).getD []
      rw [this, hm]; rfl
    · intro h1 k x hk
      rw [s2] at hk
      have h2 := ((hen.1 k [x]).1 hk).2
      obtain ⟨p, hp⟩ := List.length_eq_one_iff.1 h1
      rw [hp] at h2
      simpa [rank] using h2.symm
  obtain ⟨-, hk, he, -⟩ := genGraph_spec hn hv hes
  obtain ⟨hI, -⟩ := genGraph_spec hn hv hes
  have htab : ng'.dynStr = .ok (genGraph ng.labels ng.vals es).edges := by
    unfold NetGen.dynStr
    rw [k2, hg]
  have hpar : ∀ v ∈ ng.labels, tableParents (genGraph ng.labels ng.vals es).edges v = N.parents v := by
    intro v hvm
    show tableParents (genGraph ng.labels ng.vals es).graph.edgesView v = _
    rw [tableParents_edgesView (by rw [hk]; exact hn) hI.edgesNodup, hk]
    apply List.filter_congr
    intro p _
    rw [decide_eq_decide, he]
  refine ⟨N, _, L, htab, k1, ?_, ?_, rfl, fun _ => rfl, fun _ => rfl⟩
  · refine ⟨k3, ?_, ?_⟩
    · show ng'.labels.map _ = ng.labels.map _
      rw [k3]
      apply List.map_congr_left
      intro v hvm
      rw [hpar v hvm]
    · intro v hvm
      refine ⟨sf v, ?_, hst v hvm⟩
      exact dictGet_of_getElem? (d := L) (p := (v, sf v)) (by rw [k5]; exact hn) (hsf v hvm).1
  · refine ⟨hne, hn, ?_, ?_, ?_⟩
    · intro v _ p hp
      exact List.mem_of_mem_filter hp
    · intro v hvm
      have := hcard _ (List.mem_of_getElem? (hget v hvm))
      show 0 < cardOf ng.labels ng.vals v
      omega
    · intro v hvm u hu
      obtain ⟨s1, s2, s3, s4⟩ := hsf v hvm
      have hst := hst v hvm
      obtain ⟨k, hk⟩ := List.mem_iff_getElem?.1 ((hst.mem u).2 hu)
      have hkl : k < (sf v).cims.length := by rw [hst.len]; exact (List.getElem?_eq_some_iff.1 hk).1
      have hck := List.getElem?_eq_getElem hkl
      rw [← hst.beside k u _ hk hck]
      exact nearIntensity_ok (s4 _ (List.getElem_mem hkl)) (hcard _ (List.mem_of_getElem? (hget v hvm))).2

/-! ## C74 -/

theorem frame_col {vars : List Label} (hn : vars.Nodup) (hT : "Time" ∉ vars) (rows : RawTraj) {i : Nat} {v : Label} (hi : vars[i]? = some v) :
    (SampleNet.frame vars rows).col v = .ok (rows.map (fun r => (r.2[i]?).map (fun z : ℤ => (z : ℚ)))) := by
  have hvm := List.mem_of_getElem? hi
  unfold Frame.col SampleNet.frame
  dsimp only
  rw [List.find?_cons_of_neg (by
    simp only [decide_eq_true_eq]
    intro e; exact hT (e ▸ hvm))]
  have : (vars.zipIdx.map (fun p => (p.1, rows.map (fun r => (r.2[p.2]?).map (fun z : ℤ => (z : ℚ)))))).find? (fun p => decide (p.1 = v))
      = some (v, rows.map (fun r => (r.2[i]?).map (fun z : ℤ => (z : ℚ)))) := by
    rw [List.find?_eq_some_iff_getElem]
    have hil := (List.getElem?_eq_some_iff.1 hi).1
    refine ⟨by simp, i, by simpa using hil, ?_, ?_⟩
    · simp [(List.getElem?_eq_some_iff.1 hi).2]
    · intro j hj
      simp only [List.getElem_map, List.getElem_zipIdx, Bool.not_eq_eq_eq_not, Bool.not_true, decide_eq_false_iff_not]
      intro e
      have e1 : vars[j]? = some v := List.getElem?_eq_some_iff.2 ⟨by omega, e⟩
      exact List.nodup_iff_getElem?_ne_getElem?.1 hn j i hj hil (by rw [e1, hi])
  rw [this]

theorem frame_holds {vars : List Label} (hn : vars.Nodup) (hT : "Time" ∉ vars) {rows : RawTraj} (hw : ∀ r ∈ rows, r.2.length = vars.length) :
    Holds "Time" vars (SampleNet.frame vars rows) rows ∧ LastLabelUnique (SampleNet.frame vars rows) ∧
      (SampleNet.frame vars rows).names = "Time" :: vars := by
  have hnames : (SampleNet.frame vars rows).names = "Time" :: vars := by
    unfold Frame.names SampleNet.frame
    rw [List.map_cons, List.map_map]
    congr 1
    exact List.zipIdx_map_fst 0 vars
  refine ⟨⟨by simp [SampleNet.frame], hw, by simp [SampleNet.frame], fun i v hi => frame_col hn hT rows hi, ?_⟩, ?_, hnames⟩
  · rw [hnames, List.nodup_cons]; exact ⟨hT, hn⟩
  · intro pre l hpl hl
    have hnd : (SampleNet.frame vars rows).index.Nodup := by
      show ((List.range rows.length).map (fun n : Nat => (n : ℤ))).Nodup
      apply List.Nodup.map _ List.nodup_range
      intro a b hab
      exact Int.ofNat_inj.1 hab
    rw [hpl, List.nodup_append] at hnd
    exact hnd.2.2 l hl l (by simp) rfl

/-- Rows with genuine joint states and a terminator at the end are valid input. -/
theorem shape_in_range {N : Ctbn} (hOK : N.OK) {rows : RawTraj} {before : List (ℚ × List Nat)} {t : ℚ}
    (b1 : rows = before.map (fun r => (r.1, r.2.map (fun x : Nat => (x : ℤ)))) ++ [(t, N.vars.map (fun _ => (-1 : ℤ)))]) (b2 : ∀ r ∈ before, N.InRange r.2) :
    (∀ r ∈ rows, r.2.length = N.vars.length) ∧ RawInRange (N.vars.map N.card) [rows] := by
  have hgen : ∀ r ∈ before, ∀ (i c : Nat), (N.vars.map N.card)[i]? = some c →
      ∃ x : Nat, (r.2.map (fun x : Nat => (x : ℤ)))[i]? = some (x : ℤ) ∧ x < c := by
    intro r hr i c hc
    rw [List.getElem?_map] at hc
    cases hv : N.vars[i]? with
    | none => rw [hv] at hc; cases hc
    | some v =>
      rw [hv] at hc
      cases Option.some.inj hc
      refine ⟨N.state r.2 v, ?_, (b2 r hr).2 v (List.mem_of_getElem? hv)⟩
      rw [List.getElem?_map, state_getElem hOK (b2 r hr) hv]; rfl
  constructor
  · intro r hr
    rw [b1] at hr
    rcases List.mem_append.1 hr with hr | hr
    · obtain ⟨a, ha, rfl⟩ := List.mem_map.1 hr
      simpa using (b2 a ha).1
    · rw [List.mem_singleton] at hr
      rw [hr]; simp
  · intro raw hraw p hp i c hc
    rw [List.mem_singleton] at hraw
    subst hraw
    obtain ⟨n, hn⟩ := List.mem_iff_getElem?.1 hp
    unfold consecutive at hn
    rw [List.getElem?_zip_eq_some] at hn
    obtain ⟨h1, h2⟩ := hn
    rw [List.getElem?_tail] at h2
    have hlen : n + 1 < raw.length := (List.getElem?_eq_some_iff.1 h2).1
    have hblen : raw.length = before.length + 1 := by rw [b1]; simp
    rw [b1] at h1 h2
    rw [List.getElem?_append_left (by simp; omega), List.getElem?_map] at h1
    obtain ⟨a, ha, ha'⟩ := Option.map_eq_some_iff.1 h1
    rw [← ha']
    refine ⟨hgen a (List.mem_of_getElem? ha) i c hc, ?_⟩
    rcases Nat.lt_or_ge (n + 1) before.length with hlt | hge
    · rw [List.getElem?_append_left (by simpa using hlt), List.getElem?_map] at h2
      obtain ⟨b, hb, hb'⟩ := Option.map_eq_some_iff.1 h2
      rw [← hb']
      exact .inr (hgen b (List.mem_of_getElem? hb) i c hc)
    · left
      have : n + 1 = before.length := by omega
      rw [List.getElem?_append_right (by simp; omega), List.length_map, this, Nat.sub_self] at h2
      simp only [List.getElem?_cons_zero, Option.some.injEq] at h2
      rw [← h2]
      rw [List.getElem?_map] at hc
      cases hv : N.vars[i]? with
      | none => rw [hv] at hc; cases hc
      | some v =>
        show (N.vars.map (fun _ => (-1 : ℤ)))[i]? = some (-1)
        rw [List.getElem?_map, hv]; rfl

/-- Every sampled trajectory is valid input: all its rows with a successor are genuine joint states, the last one is the terminator. -/
theorem sample_in_range {net : SampleNet} {N : Ctbn} (hD : Describes net N) (hOK : N.OK) {tEnd : ℚ} {maxTr : ℤ} {draws : SampleDraws}
    {rows : RawTraj} (h : Samples net tEnd maxTr draws rows) :
    (∀ r ∈ rows, r.2.length = N.vars.length) ∧ RawInRange (N.vars.map N.card) [rows] := by
  obtain ⟨before, t, b1, b2, -, -⟩ := sample_shape hD hOK h
  exact shape_in_range hOK b1 b2

/-- What importing valid trajectories builds, and that this is valid data. -/
theorem valid_builds_data {N : Ctbn} (hOK : N.OK) (hcl : NoSuffixClash N.vars)
    (hT : "Time" ∉ N.vars) {samples : List RawTraj}
    (hs : ∀ rows ∈ samples, (∀ r ∈ rows, r.2.length = N.vars.length) ∧ RawInRange (N.vars.map N.card) [rows]) (hdata : ∃ rows ∈ samples, 2 ≤ rows.length) (es : List Edge) :
    ∃ p : SamplePath,
      buildFromRaw (samples.map (SampleNet.frame N.vars)) ⟨List.range N.vars.length, N.vars, N.vars.map N.card⟩ es = .ok p ∧
      p.struct = some (builtStruct N.vars (N.vars.map N.card) es) ∧ p.trajectories = some (builtTraj N.vars samples) ∧
      DataOK (builtStruct N.vars (N.vars.map N.card) es) (builtTraj N.vars samples) := by
  obtain ⟨rows₀, hr0, hr2⟩ := hdata
  cases samples with
  | nil => simp at hr0
  | cons a rest =>
    have hwid : ∀ rows ∈ a :: rest, ∀ r ∈ rows, r.2.length = N.vars.length := by
      intro rows hr
      exact (hs rows hr).1
    have hall : ∀ L : List RawTraj, (∀ rows ∈ L, ∀ r ∈ rows, r.2.length = N.vars.length) →
        List.Forall₂ (fun f raw => Holds "Time" N.vars f raw ∧ LastLabelUnique f) (L.map (SampleNet.frame N.vars)) L := by
      intro L
      induction L with
      | nil => intro _; exact .nil
      | cons b L ih =>
        intro hb
        have := frame_holds hOK.nodup hT (hb b (by simp))
        exact .cons ⟨this.1, this.2.1⟩ (ih (fun rows hr => hb rows (by simp [hr])))
    rw [List.map_cons]
    obtain ⟨p, h1, h2, h3, -, -, -, -, h4⟩ := raw_builds_data N.vars hcl hOK.nonempty (SampleNet.frame N.vars a)
      (rest.map (SampleNet.frame N.vars)) (a :: rest)
      (frame_holds hOK.nodup hT (hwid a (by simp))).2.2 (hall (a :: rest) hwid) (by
        intro e
        unfold stepRows at e
        rw [List.flatMap_eq_nil_iff] at e
        have := e rows₀ hr0
        rw [List.map_eq_nil_iff] at this
        unfold consecutive at this
        have hl := congrArg List.length this
        simp at hl
        omega) (N.vars.map N.card) (by
        intro raw hraw
        exact (hs raw hraw).2 raw (by simp)) es
    exact ⟨p, h1, h2, h3, h4⟩

/-- What importing sampled trajectories builds, and that this is valid data. -/
theorem sampled_builds_data {net : SampleNet} {N : Ctbn} (hD : Describes net N) (hOK : N.OK) (hcl : NoSuffixClash N.vars)
    (hT : "Time" ∉ N.vars) {samples : List RawTraj}
    (hs : ∀ rows ∈ samples, ∃ tEnd maxTr draws, Samples net tEnd maxTr draws rows) (hdata : ∃ rows ∈ samples, 2 ≤ rows.length) (es : List Edge) :
    ∃ p : SamplePath,
      buildFromRaw (samples.map (SampleNet.frame N.vars)) ⟨List.range N.vars.length, N.vars, N.vars.map N.card⟩ es = .ok p ∧
      p.struct = some (builtStruct N.vars (N.vars.map N.card) es) ∧ p.trajectories = some (builtTraj N.vars samples) ∧
      DataOK (builtStruct N.vars (N.vars.map N.card) es) (builtTraj N.vars samples) := by
  refine valid_builds_data hOK hcl hT (fun rows hr => ?_) hdata es
  obtain ⟨tEnd, maxTr, draws, h⟩ := hs rows hr
  exact sample_in_range hD hOK h

/-- **C74** (partial).  Trajectories returned by `CTBN_Sample` (any number, with any limits and draws, not all of a single row) can be imported, and the estimation of
every node with admissible cardinalities over them returns: each residence time is the time spent in the state in the sampled rows, each transition
count the number of sampled transitions between genuine states; the terminator is neither a state nor the end of a counted transition.
Missing: inadmissible cardinalities (C17, C21) and clashing labels (C03). -/
theorem sampled_trajectories_estimable_partial {net : SampleNet} {N : Ctbn} (hD : Describes net N) (hOK : N.OK) (hcl : NoSuffixClash N.vars)
    (hT : "Time" ∉ N.vars) {samples : List RawTraj}
    (hs : ∀ rows ∈ samples, ∃ tEnd maxTr draws, Samples net tEnd maxTr draws rows) (hdata : ∃ rows ∈ samples, 2 ≤ rows.length) (es : List Edge) :
    ∃ (p : SamplePath) (s : Structure) (t : Trajectory),
      buildFromRaw (samples.map (SampleNet.frame N.vars)) ⟨List.range N.vars.length, N.vars, N.vars.map N.card⟩ es = .ok p ∧ p.struct = some s ∧
      p.trajectories = some t ∧ s.labels = N.vars ∧ s.edges = es ∧
      ∀ (g : NetworkGraph), Reach s g → ∀ n ∈ N.vars, ∀ (c : Nat) (ps : List Nat), s.getStatesNumber n = .ok c →
        ps.map Except.ok = (parentsOf g n).map s.getStatesNumber → ExactCards c ps →
        ∃ sofc, ParamsEst.estimate t g n = .ok sofc ∧
          (sofc.cims.map (fun cim => cim.resTimes.sum)).sum = (samples.map spanOf).sum ∧
          (∀ u, u ∈ sofc.pCombs ↔ InRangeAssign ps u) ∧
          ∀ (r : Nat) (u : List Nat), sofc.pCombs[r]? = some u → ∃ cim : Cim, sofc.cims[r]? = some cim ∧
            (∀ x, x < c → cim.resTimes[x]? = some (rawResidence N.vars samples n (parentsOf g n) x u)) ∧
            (∀ x x', x < c → x' < c → x ≠ x' →
              entry2 cim.trans x x' = some (rawTransitions N.vars samples n (parentsOf g n) x x' u)) := by
  obtain ⟨rows₀, hr0, hr2⟩ := hdata
  cases samples with
  | nil => simp at hr0
  | cons a rest =>
    have hwid : ∀ rows ∈ a :: rest, ∀ r ∈ rows, r.2.length = N.vars.length := by
      intro rows hr
      obtain ⟨tEnd, maxTr, draws, h⟩ := hs rows hr
      exact (sample_in_range hD hOK h).1
    have hall : ∀ L : List RawTraj, (∀ rows ∈ L, ∀ r ∈ rows, r.2.length = N.vars.length) →
        List.Forall₂ (fun f raw => Holds "Time" N.vars f raw ∧ LastLabelUnique f) (L.map (SampleNet.frame N.vars)) L := by
      intro L
      induction L with
      | nil => intro _; exact .nil
      | cons b L ih =>
        intro hb
        have := frame_holds hOK.nodup hT (hb b (by simp))
        exact .cons ⟨this.1, this.2.1⟩ (ih (fun rows hr => hb rows (by simp [hr])))
    rw [List.map_cons]
    refine raw_to_statistics_partial N.vars hcl hOK.nonempty (SampleNet.frame N.vars a) (rest.map (SampleNet.frame N.vars)) (a :: rest)
      (frame_holds hOK.nodup hT (hwid a (by simp))).2.2 (hall (a :: rest) hwid) ?_ (N.vars.map N.card) (by simp) ?_ ?_ es
    · intro e
      unfold stepRows at e
      rw [List.flatMap_eq_nil_iff] at e
      have := e rows₀ hr0
      rw [List.map_eq_nil_iff] at this
      unfold consecutive at this
      have hl := congrArg List.length this
      simp at hl
      omega
    · intro raw hraw
      obtain ⟨tEnd, maxTr, draws, h⟩ := hs raw hraw
      exact (sample_in_range hD hOK h).2 raw (by simp)
    · intro c hc
      obtain ⟨v, hv, rfl⟩ := List.mem_map.1 hc
      exact hOK.pos v hv

end PyCTBN
