import Verif.Props.Importer
import Verif.Props.Params

/-!
# C79: from raw trajectories to statistics
-/

namespace PyCTBN
open Spec

/-- State of variable `l` in a raw sample over the variables `vars`. -/
def rawState (vars : List Label) (smp : ℚ × List ℤ) (l : Label) : Option ℤ := smp.2[vars.idxOf l]?

/-- The child is in state `x` and the parents in `u` in the sample. -/
def rawMatches (vars : List Label) (child : Label) (parents : List Label) (x : Nat) (u : List Nat)
    (smp : ℚ × List ℤ) : Bool :=
  decide (rawState vars smp child = some (x : ℤ)) &&
    decide (parents.map (rawState vars smp) = u.map (fun v : Nat => some (v : ℤ)))

/-- Total time the raw trajectories spend with child `x` and parents `u`: each sample lasts until the next one of the same
trajectory. -/
def rawResidence (vars : List Label) (raws : List RawTraj) (child : Label) (parents : List Label) (x : Nat) (u : List Nat) : ℚ :=
  (((raws.flatMap consecutive).filter (fun p => rawMatches vars child parents x u p.1)).map (fun p => p.2.1 - p.1.1)).sum

/-- Number of consecutive samples in which the child goes from `x` to `x'` while the parents are (before) in `u`. -/
def rawTransitions (vars : List Label) (raws : List RawTraj) (child : Label) (parents : List Label) (x x' : Nat)
    (u : List Nat) : Nat :=
  ((raws.flatMap consecutive).filter (fun p => rawMatches vars child parents x u p.1 &&
    decide (rawState vars p.2 child = some (x' : ℤ)))).length

/-- All raw states are within the declared cardinalities, except that the last sample of a trajectory may hold the terminator
`-1` (every sample with a successor must be genuine). -/
def RawInRange (cards : List Nat) (raws : List RawTraj) : Prop :=
  ∀ raw ∈ raws, ∀ p ∈ consecutive raw, ∀ (i c : Nat), cards[i]? = some c →
    (∃ x : Nat, p.1.2[i]? = some (x : ℤ) ∧ x < c) ∧
    (p.2.2[i]? = some (-1) ∨ ∃ x : Nat, p.2.2[i]? = some (x : ℤ) ∧ x < c)

section
variable {vars : List Label} {cards : List Nat} {raws : List RawTraj} {es : List Edge}

theorem getNodeIndx_built (hnd : vars.Nodup) {l : Label} (hl : l ∈ vars) :
    (⟨vars, List.range vars.length, cards, es, vars.length⟩ : Structure).getNodeIndx l = .ok (vars.idxOf l) := by
  unfold Structure.getNodeIndx
  dsimp only
  rw [pyIndex_of_mem hl]
  show pyGet _ _ = _
  have := List.idxOf_lt_length_of_mem hl
  rw [pyGet_ok, List.getElem?_range this]

theorem zip_steps (raws : List RawTraj) :
    (durations raws).zip (stepRows raws) = (raws.flatMap consecutive).map (fun p => (p.2.1 - p.1.1, p.1.2 ++ p.2.2)) := by
  have e1 : durations raws = (raws.flatMap consecutive).map (fun p => p.2.1 - p.1.1) := by
    simp only [durations, List.map_flatMap]
  have e2 : stepRows raws = (raws.flatMap consecutive).map (fun p => p.1.2 ++ p.2.2) := by
    simp only [stepRows, List.map_flatMap]
  rw [e1, e2, List.zip_map']

theorem stepRows_eq (raws : List RawTraj) :
    stepRows raws = (raws.flatMap consecutive).map (fun p => p.1.2 ++ p.2.2) := by
  simp only [stepRows, List.map_flatMap]

theorem stateOf_step (hnd : vars.Nodup) {l : Label} (hl : l ∈ vars) {a b : List ℤ} (ha : a.length = vars.length) :
    stateOf (⟨vars, List.range vars.length, cards, es, vars.length⟩ : Structure) (a ++ b) l = a[vars.idxOf l]? := by
  unfold stateOf
  rw [getNodeIndx_built hnd hl]
  dsimp only
  rw [List.getElem?_append_left (by rw [ha]; exact List.idxOf_lt_length_of_mem hl)]

theorem nextOf_step (hnd : vars.Nodup) {l : Label} (hl : l ∈ vars) {a b : List ℤ} (ha : a.length = vars.length) :
    nextOf (⟨vars, List.range vars.length, cards, es, vars.length⟩ : Structure) (a ++ b) l = b[vars.idxOf l]? := by
  unfold nextOf
  rw [getNodeIndx_built hnd hl]
  dsimp only
  rw [List.getElem?_append_right (by omega), ha, Nat.add_sub_cancel_left]

theorem rowMatches_step (hnd : vars.Nodup) {n : Label} (hn : n ∈ vars) {ps : List Label} (hps : ∀ p ∈ ps, p ∈ vars)
    {x : Nat} {u : List Nat} {p : (ℚ × List ℤ) × (ℚ × List ℤ)} (ha : p.1.2.length = vars.length) :
    rowMatches (⟨vars, List.range vars.length, cards, es, vars.length⟩ : Structure) n ps x u (p.1.2 ++ p.2.2)
      = rawMatches vars n ps x u p.1 := by
  unfold rowMatches rawMatches
  rw [stateOf_step hnd hn ha]
  have : ps.map (stateOf (⟨vars, List.range vars.length, cards, es, vars.length⟩ : Structure) (p.1.2 ++ p.2.2))
      = ps.map (rawState vars p.1) := by
    apply List.map_congr_left
    intro l hl
    exact stateOf_step hnd (hps l hl) ha
  rw [this]; rfl

end

/-- The pipeline of calls a user makes: import, `SamplePath(importer)`, `build_trajectories`, `build_structure`. -/
def buildFromRaw (frames : List Frame) (vt : VarTable) (es : List Edge) : Py SamplePath := do
  let imp ← jsonImportData "Time" frames vt es
  let p ← SamplePath.new imp
  let p ← p.buildTrajectories
  p.buildStructure

/-- The structure object built from the tables of a file. -/
def builtStruct (vars : List Label) (cards : List Nat) (es : List Edge) : Structure := ⟨vars, List.range vars.length, cards, es, vars.length⟩

/-- The trajectory object built from the raw trajectories. -/
def builtTraj (vars : List Label) (raws : List RawTraj) : Trajectory := ⟨durations raws, stepRows raws, vars.length + 1⟩

/-- What importing clash-free raw trajectories builds: the tables as given and the consecutive pairs of rows. -/
theorem raw_builds (vars : List Label) (hcl : NoSuffixClash vars) (hv : vars ≠ [])
    (f₀ : Frame) (rest : List Frame) (raws : List RawTraj) (hhdr : f₀.names = "Time" :: vars)
    (h : List.Forall₂ (fun f raw => Holds "Time" vars f raw ∧ LastLabelUnique f) (f₀ :: rest) raws)
    (hdata : stepRows raws ≠ []) (cards : List Nat) (es : List Edge) :
    ∃ p : SamplePath, buildFromRaw (f₀ :: rest) ⟨List.range vars.length, vars, cards⟩ es = .ok p ∧
      p.struct = some (builtStruct vars cards es) ∧ p.trajectories = some (builtTraj vars raws) ∧ p.totalVariables = some vars.length ∧
      "Time" ∉ vars ∧ vars.Nodup ∧ (∀ p ∈ raws.flatMap consecutive, p.1.2.length = vars.length ∧ p.2.2.length = vars.length) := by
  have hTn : "Time" ∉ vars ∧ vars.Nodup := by
    cases h with
    | cons h0 _ => exact header_facts h0.1 hhdr
  obtain ⟨hT, hnd⟩ := hTn
  obtain ⟨C, hC1, hC2, hC3, hC4⟩ := delivered_no_clash hv hT hcl (by simp) h
  obtain ⟨C', himp, _, _, hC4'⟩ := preprocessing_yields_consecutive_pairs vars hv hcl f₀ rest raws hhdr h
    ⟨List.range vars.length, vars, cards⟩ es
  have hCC : C' = C := by
    unfold jsonImportData jsonSorter at himp
    simp only [pyGet, List.getElem?_cons_zero, Except.bind_ok', hhdr] at himp
    have : pyRemove ("Time" :: vars) "Time" = .ok vars := by simp [pyRemove]
    rw [this] at himp
    simp only [Except.bind_ok', hC1, Except.pure_eq_ok', Except.ok.injEq, Importer.mk.injEq, Option.some.injEq] at himp
    exact himp.1.symm
  subst hCC
  have hidx : C'.index ≠ [] := by
    intro e; rw [e] at hC2; exact hdata (List.length_eq_zero_iff.1 hC2.symm)
  set s : Structure := ⟨vars, List.range vars.length, cards, es, vars.length⟩ with hs
  set t : Trajectory := ⟨durations raws, stepRows raws, vars.length + 1⟩ with ht
  refine ⟨⟨⟨some C'.noRows, some vars, some ⟨List.range vars.length, vars, cards⟩, some es⟩, some t, some s,
    some vars.length⟩, ?_, rfl, rfl, rfl, hT, hnd, fun p hp => width_of_mem h hp⟩
  unfold buildFromRaw
  rw [himp]
  simp only [Except.bind_ok', SamplePath.new, hv, if_false, hidx, hC3, or_self, SamplePath.buildTrajectories, hC4,
    SamplePath.buildStructure, ne_eq, not_true, Option.getD_some]
  rfl

/-- ... and, when the states are in range, this is valid data. -/
theorem raw_builds_data (vars : List Label) (hcl : NoSuffixClash vars) (hv : vars ≠ [])
    (f₀ : Frame) (rest : List Frame) (raws : List RawTraj) (hhdr : f₀.names = "Time" :: vars)
    (h : List.Forall₂ (fun f raw => Holds "Time" vars f raw ∧ LastLabelUnique f) (f₀ :: rest) raws)
    (hdata : stepRows raws ≠ []) (cards : List Nat) (hrange : RawInRange cards raws) (es : List Edge) :
    ∃ p : SamplePath, buildFromRaw (f₀ :: rest) ⟨List.range vars.length, vars, cards⟩ es = .ok p ∧
      p.struct = some (builtStruct vars cards es) ∧ p.trajectories = some (builtTraj vars raws) ∧ p.totalVariables = some vars.length ∧
      "Time" ∉ vars ∧ vars.Nodup ∧ (∀ p ∈ raws.flatMap consecutive, p.1.2.length = vars.length ∧ p.2.2.length = vars.length) ∧
      DataOK (builtStruct vars cards es) (builtTraj vars raws) := by
  obtain ⟨p, b1, b2, b3, b4, hT, hnd, hw⟩ := raw_builds vars hcl hv f₀ rest raws hhdr h hdata cards es
  refine ⟨p, b1, b2, b3, b4, hT, hnd, hw, ?_⟩
  unfold builtStruct builtTraj
  set s : Structure := ⟨vars, List.range vars.length, cards, es, vars.length⟩ with hs
  set t : Trajectory := ⟨durations raws, stepRows raws, vars.length + 1⟩ with ht
  have hmemraw : ∀ p ∈ raws.flatMap consecutive, ∃ raw ∈ raws, p ∈ consecutive raw := by
    intro p hp
    exact List.mem_flatMap.1 hp
  have hcardat : ∀ l ∈ vars, ∀ v, s.getStatesNumber l = .ok v → cards[vars.idxOf l]? = some v := by
    intro l hl v hv
    unfold Structure.getStatesNumber at hv
    rw [hs] at hv
    dsimp only at hv
    rw [pyIndex_of_mem hl] at hv
    exact pyGet_ok.1 hv
  · show DataOK s t
    refine ⟨rfl, ?_, ?_, ?_, ?_, ?_⟩
    · simp [ht, durations, stepRows, List.length_flatMap]
    · intro r hr
      rw [ht, stepRows_eq] at hr
      obtain ⟨p, hp, rfl⟩ := List.mem_map.1 hr
      obtain ⟨w1, w2⟩ := hw p hp
      simp [hs, w1, w2]; ring
    · intro i hi; exact List.mem_range.1 hi
    · intro r hr l hl v hv
      rw [ht, stepRows_eq] at hr
      obtain ⟨p, hp, rfl⟩ := List.mem_map.1 hr
      obtain ⟨raw, hraw, hp1⟩ := hmemraw p hp
      rw [hs, stateOf_step hnd hl (hw p hp).1]
      exact (hrange raw hraw _ hp1 _ _ (hcardat l hl v hv)).1
    · intro r hr l hl v hv
      rw [ht, stepRows_eq] at hr
      obtain ⟨p, hp, rfl⟩ := List.mem_map.1 hr
      obtain ⟨raw, hraw, hp1⟩ := hmemraw p hp
      rw [hs, nextOf_step hnd hl (hw p hp).1]
      exact (hrange raw hraw _ hp1 _ _ (hcardat l hl v hv)).2

/-- **C79** (partial) End to end, for all raw data over clash-free labels (not all trajectories empty), any graph over the resulting
structure and any node with admissible cardinalities: each residence time and each transition count delivered by the
estimator is the quantity defined directly on the raw trajectories, and all residence times add up to the total duration
of the raw trajectories. Missing: inadmissible cardinalities (see C17, C21) and clashing labels (see C03). -/
theorem raw_to_statistics_partial (vars : List Label) (hcl : NoSuffixClash vars) (hv : vars ≠ [])
    (f₀ : Frame) (rest : List Frame) (raws : List RawTraj) (hhdr : f₀.names = "Time" :: vars)
    (h : List.Forall₂ (fun f raw => Holds "Time" vars f raw ∧ LastLabelUnique f) (f₀ :: rest) raws)
    (hdata : stepRows raws ≠ []) (cards : List Nat) (hcards : cards.length = vars.length) (hrange : RawInRange cards raws)
    (hcpos : ∀ c ∈ cards, 0 < c) (es : List Edge) :
    ∃ (p : SamplePath) (s : Structure) (t : Trajectory),
      buildFromRaw (f₀ :: rest) ⟨List.range vars.length, vars, cards⟩ es = .ok p ∧ p.struct = some s ∧
      p.trajectories = some t ∧ s.labels = vars ∧ s.edges = es ∧
      ∀ (g : NetworkGraph), Reach s g → ∀ n ∈ vars, ∀ (c : Nat) (ps : List Nat), s.getStatesNumber n = .ok c →
        ps.map Except.ok = (parentsOf g n).map s.getStatesNumber → ExactCards c ps →
        ∃ sofc, ParamsEst.estimate t g n = .ok sofc ∧
          (sofc.cims.map (fun cim => cim.resTimes.sum)).sum = (raws.map spanOf).sum ∧
          (∀ u, u ∈ sofc.pCombs ↔ InRangeAssign ps u) ∧
          ∀ (r : Nat) (u : List Nat), sofc.pCombs[r]? = some u → ∃ cim : Cim, sofc.cims[r]? = some cim ∧
            (∀ x, x < c → cim.resTimes[x]? = some (rawResidence vars raws n (parentsOf g n) x u)) ∧
            (∀ x x', x < c → x' < c → x ≠ x' →
              entry2 cim.trans x x' = some (rawTransitions vars raws n (parentsOf g n) x x' u)) := by
  obtain ⟨p, b1, b2, b3, -, hT, hnd, hw, hOK⟩ := raw_builds_data vars hcl hv f₀ rest raws hhdr h hdata cards hrange es
  refine ⟨p, builtStruct vars cards es, builtTraj vars raws, b1, b2, b3, rfl, rfl, ?_⟩
  set s : Structure := builtStruct vars cards es with hs
  set t : Trajectory := builtTraj vars raws with ht
  have hcardat : ∀ l ∈ vars, ∀ v, s.getStatesNumber l = .ok v → cards[vars.idxOf l]? = some v := by
    intro l hl v hv
    unfold Structure.getStatesNumber at hv
    rw [hs] at hv
    dsimp only [builtStruct] at hv
    rw [pyIndex_of_mem hl] at hv
    exact pyGet_ok.1 hv
  intro g hg n hn c ps hcn hps hex
  have hcpos' : 0 < c := hcpos c (List.mem_of_getElem? (hcardat n hn c hcn))
  have hpos : PosCards s := hcpos
  have hpar : ∀ p ∈ parentsOf g n, p ∈ vars := by
    intro p hp
    have := mem_parentsOf hp
    rw [hg.inv.2] at this; exact this
  obtain ⟨sofc, h1, _, _, h2, h3⟩ := residence_times_exact_partial s g hg t hOK n hn c hcn hcpos' ps hps hex
  obtain ⟨sofc', h1', h3'⟩ := transition_counts_exact_partial s g hg t hOK n hn c hcn hcpos' ps hps hex
  rw [h1] at h1'; cases h1'
  refine ⟨sofc, h1, ?_, h2, ?_⟩
  · rw [total_time_conserved s g hg hpos n hn t sofc h1]
    show (durations raws).sum = _
    clear h hdata hrange hOK h1 h3 h3' hw b1 b3 ht t
    induction raws with
    | nil => rfl
    | cons r rs ih =>
      rw [List.map_cons, List.sum_cons, ← ih, ← durations_one]
      unfold durations
      rw [List.flatMap_cons, List.sum_append]
  · intro r u hru
    obtain ⟨cim, e1, _, e2⟩ := h3 r u hru
    obtain ⟨cim', e1', e2', _⟩ := h3' r u hru
    rw [e1] at e1'; cases e1'
    refine ⟨cim, e1, ?_, ?_⟩
    · intro x hx
      rw [e2 x hx]
      congr 1
      unfold residence rawResidence
      rw [ht]
      dsimp only [builtTraj]
      rw [zip_steps, List.filter_map, List.map_map]
      congr 1
      have : ∀ l : List ((ℚ × List ℤ) × (ℚ × List ℤ)), (∀ p ∈ l, p.1.2.length = vars.length) →
          l.filter ((fun r : ℚ × List ℤ => rowMatches s n (parentsOf g n) x u r.2) ∘ fun p => (p.2.1 - p.1.1, p.1.2 ++ p.2.2))
            = l.filter (fun p => rawMatches vars n (parentsOf g n) x u p.1) := by
        intro l hl
        apply List.filter_congr
        intro p hp
        exact rowMatches_step hnd hn hpar (hl p hp)
      rw [this _ (fun p hp => (hw p hp).1)]
      rfl
    · intro x x' hx hx' hne
      rw [e2' x x' hx hx' hne]
      congr 1
      unfold transitions rawTransitions
      rw [ht]
      dsimp only [builtTraj]
      rw [stepRows_eq, List.filter_map, List.length_map]
      congr 1
      apply List.filter_congr
      intro p hp
      show (rowMatches s n (parentsOf g n) x u (p.1.2 ++ p.2.2) && decide (nextOf s (p.1.2 ++ p.2.2) n = some (x' : ℤ))) = _
      rw [hs]
      unfold builtStruct
      rw [rowMatches_step hnd hn hpar (hw p hp).1, nextOf_step hnd hn (hw p hp).1]
      rfl

/-- The hypotheses are met by the example frame. -/
example : stepRows [exRaw] ≠ [] ∧ RawInRange [2, 3] [exRaw] ∧
    List.Forall₂ (fun f raw => Holds "Time" ["X", "Y"] f raw ∧ LastLabelUnique f) [exFrame] [exRaw] := by
  refine ⟨by decide +kernel, ?_, .cons ⟨exHolds, exLast⟩ .nil⟩
  intro raw hraw p hp i c hc
  simp only [List.mem_singleton] at hraw
  subst hraw
  simp only [exRaw, consecutive, List.tail_cons, List.zip_cons_cons, List.zip_nil_right, List.mem_cons, List.not_mem_nil,
    or_false] at hp
  match i, hc with
  | 0, hc =>
    simp at hc; subst hc
    rcases hp with rfl | rfl
    · exact ⟨⟨0, rfl, by decide⟩, .inr ⟨1, rfl, by decide⟩⟩
    · exact ⟨⟨1, rfl, by decide⟩, .inr ⟨1, rfl, by decide⟩⟩
  | 1, hc =>
    simp at hc; subst hc
    rcases hp with rfl | rfl
    · exact ⟨⟨0, rfl, by decide⟩, .inr ⟨0, rfl, by decide⟩⟩
    · exact ⟨⟨0, rfl, by decide⟩, .inr ⟨2, rfl, by decide⟩⟩

end PyCTBN
