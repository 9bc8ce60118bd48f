import Verif.Lemmas.Json
import Verif.Props.SampleDemo

/-!
# Files: what `JsonExporter.out_file` writes, `JsonImporter` reads (C89-C92)
-/

namespace PyCTBN
open Spec

/-! ## Sampled times have four decimals -/

/-- A number with at most four decimals. -/
def FourDecimals (q : ℚ) : Prop := ∃ k : ℤ, q = k / 10000

theorem fourDecimals_int (z : ℤ) : FourDecimals z := ⟨z * 10000, by push_cast; ring⟩

section
variable {net : SampleNet} {N : Ctbn} {tEnd : ℚ} {maxTr : ℤ} {draws : SampleDraws}

theorem visits_fourDecimals (hD : Describes net N) (hOK : N.OK) {s : SampleState} (h : Visits net tEnd maxTr draws s) :
    ∀ r ∈ s.rows, FourDecimals r.1 := by
  induction h with
  | init =>
    intro r hr
    simp only [SampleNet.initState, List.mem_singleton] at hr
    subst hr
    exact ⟨0, by simp⟩
  | step hv hs ih =>
    have hg := good_of_visits hD hOK hv
    obtain ⟨cur, c1, c2, c3⟩ := hg.last
    obtain ⟨times, k, t, v, e1, e2, e3, e4, e5, e6⟩ := step_spec (tEnd := tEnd) (maxTr := maxTr) (draws := draws) hD hOK c1 c3 hg.timers
    rcases e6 with ⟨-, e⟩ | ⟨-, y, y1, y2, y3, e⟩
    · rw [hs] at e; cases e
    · rw [hs] at e
      simp only [Except.ok.injEq, SampleStep.next.injEq] at e
      subst e
      intro r hr
      rcases List.mem_append.1 hr with hr | hr
      · exact ih r hr
      · rw [List.mem_singleton] at hr
        subst hr
        exact ⟨rint (t * 10000), rfl⟩

/-- Every time in a sampled trajectory has at most four decimals. -/
theorem sample_fourDecimals (hD : Describes net N) (hOK : N.OK) {rows : RawTraj} (h : Samples net tEnd maxTr draws rows) :
    ∀ r ∈ rows, FourDecimals r.1 := by
  obtain ⟨s, hv, hs⟩ := samples_visits h
  rw [done_rows hD hOK hv hs]
  intro r hr
  have : r.1 ∈ s.rows.map Prod.fst := by
    rw [← terminate_times]
    exact List.mem_map_of_mem hr
  obtain ⟨r', hr', e⟩ := List.mem_map.1 this
  rw [← e]
  exact visits_fourDecimals hD hOK hv r' hr'

theorem sample_nonempty (hD : Describes net N) (hOK : N.OK) {rows : RawTraj} (h : Samples net tEnd maxTr draws rows) : 0 < rows.length := by
  obtain ⟨b, t, h1, -⟩ := sample_shape hD hOK h
  rw [h1]; simp

theorem frame_plain {vars : List Label} (hn : vars.Nodup) (hT : "Time" ∉ vars) (rows : RawTraj) :
    PlainFrame (SampleNet.frame vars rows) rows.length := by
  refine ⟨rfl, ?_, ?_⟩
  · intro p hp
    unfold SampleNet.frame at hp
    rcases List.mem_cons.1 hp with rfl | hp
    · simp
    · obtain ⟨q, _, rfl⟩ := List.mem_map.1 hp
      simp
  · unfold SampleNet.frame
    rw [List.map_cons, List.map_map]
    have : vars.zipIdx.map (Prod.fst ∘ fun p : Label × Nat => (p.1, rows.map (fun r => (r.2[p.2]?).map (fun z : ℤ => (z : ℚ))))) = vars :=
      List.zipIdx_map_fst 0 vars
    rw [this, List.nodup_cons]
    exact ⟨hT, hn⟩

theorem frame_cells {vars : List Label} {rows : RawTraj} (h4 : ∀ r ∈ rows, FourDecimals r.1) :
    ∀ p ∈ (SampleNet.frame vars rows).cols, ∀ q, some q ∈ p.2 → FourDecimals q := by
  intro p hp q hq
  unfold SampleNet.frame at hp
  rcases List.mem_cons.1 hp with rfl | hp
  · obtain ⟨r, hr, e⟩ := List.mem_map.1 hq
    cases e
    exact h4 r hr
  · obtain ⟨a, _, rfl⟩ := List.mem_map.1 hp
    obtain ⟨r, hr, e⟩ := List.mem_map.1 hq
    cases hz : r.2[a.2]? with
    | none => rw [hz] at e; cases e
    | some z =>
      rw [hz] at e
      cases e
      exact fourDecimals_int z

end

/-! ## The network in the file -/

/-- The exported dictionaries of a network: one per variable, each with an entry per stored assignment, in the stored order. -/
theorem cimsToJson_spec {labels : List Label} {table : List Edge} {cims : List (Label × SetOfCims)} {N : Ctbn}
    (hD : Describes (SampleNet.new labels table cims) N) (hOK : N.OK) {sf : Label → SetOfCims}
    (hsf : ∀ v ∈ N.vars, dictGet cims v = .ok (sf v) ∧ Stores (N.parentCards v) (N.cim v) (sf v)) :
    cimsToJson labels table cims = .ok (N.vars.map (fun v =>
      (v, (sf v).pCombs.map (fun u => (keyOf v (N.parents v) u, (N.cim v u).map rowDict))))) := by
  have hvn : labels = N.vars := hD.vnames
  have hpar : ∀ v ∈ N.vars, tableParents table v = N.parents v := by
    intro v hv
    have := hD.parents
    unfold SampleNet.new at this
    simp only [hvn] at this
    have := List.map_inj_left.1 this v hv
    exact (Prod.mk.inj this).2
  unfold cimsToJson
  rw [hvn]
  have := fold_dictSet (f := fun l => (.ok l : Py String)) (g := fun l => do
      let s ← dictGet cims l
      exportNode l (tableParents table l) s) id
      (fun v => (sf v).pCombs.map (fun u => (keyOf v (N.parents v) u, (N.cim v u).map rowDict))) N.vars (by
    intro v hv
    refine ⟨rfl, ?_⟩
    rw [(hsf v hv).1, hpar v hv]
    exact (exported_node (hsf v hv).2 v (by simp [Ctbn.parentCards])).1) (by rw [List.map_id]; exact hOK.nodup) [] (by simp)
  rw [List.nil_append] at this
  rw [show N.vars.map (fun v => (v, (sf v).pCombs.map (fun u => (keyOf v (N.parents v) u, (N.cim v u).map rowDict)))) =
    N.vars.map (fun v => (id v, (sf v).pCombs.map (fun u => (keyOf v (N.parents v) u, (N.cim v u).map rowDict)))) from rfl, ← this]
  congr 1
  funext d l
  simp only [Except.bind_ok']
  cases dictGet cims l with
  | error e => rfl
  | ok s => simp only [Except.bind_ok']

/-! ## C89 -/

/-- The exporter of a network after `add_trajectory` for every frame. -/
def exporterOf (labels : List Label) (cards : List Nat) (table : List Edge) (cims : List (Label × SetOfCims)) (fs : List Frame) : JsonExporter :=
  fs.foldl JsonExporter.addTrajectory (JsonExporter.new labels cards table cims)

theorem exporterOf_eq (labels : List Label) (cards : List Nat) (table : List Edge) (cims : List (Label × SetOfCims)) (fs : List Frame) :
    exporterOf labels cards table cims fs = ⟨labels, cards, table, cims, fs⟩ := by
  have : ∀ (fs : List Frame) (x : JsonExporter), fs.foldl JsonExporter.addTrajectory x = { x with trajectories := x.trajectories ++ fs } := by
    intro fs
    induction fs with
    | nil => intro x; simp
    | cons f fs ih => intro x; rw [List.foldl_cons, ih]; simp [JsonExporter.addTrajectory]
  unfold exporterOf
  rw [this]
  simp [JsonExporter.new]

theorem import_written {enc : ℚ → ℚ} {labels : List Label} {cards : List Nat} (hlen : labels.length = cards.length) {table : List Edge}
    {json : List (Label × List (String × JsonCim))} {fs : List Frame} (hfs : ∀ f ∈ fs, ∃ n, 0 < n ∧ PlainFrame f n)
    (henc : ∀ f ∈ fs, ∀ p ∈ f.cols, ∀ q, some q ∈ p.2 → enc q = q) {file : JVal}
    (hfile : file = .arr [.obj [("dyn.str", edgesJson table), ("variables", varsJson labels cards), ("dyn.cims", cimsJson json),
      ("samples", .arr (fs.map (frameJson enc)))]]) (timeKey variablesKey : String) :
    jsonImportFile ⟨"samples", "dyn.str", "variables", timeKey, variablesKey, some "dyn.cims"⟩ file 0 = (do
      let imp ← jsonImportData timeKey fs ⟨List.range labels.length, labels, cards⟩ table
      return (imp, some (cimsJson json))) := by
  subst hfile
  unfold jsonImportFile jsonImportData
  have k1 : JVal.key (.obj [("dyn.str", edgesJson table), ("variables", varsJson labels cards), ("dyn.cims", cimsJson json),
      ("samples", .arr (fs.map (frameJson enc)))]) "samples" = .ok (.arr (fs.map (frameJson enc))) := rfl
  have k2 : JVal.key (.obj [("dyn.str", edgesJson table), ("variables", varsJson labels cards), ("dyn.cims", cimsJson json),
      ("samples", .arr (fs.map (frameJson enc)))]) "dyn.str" = .ok (edgesJson table) := rfl
  have k3 : JVal.key (.obj [("dyn.str", edgesJson table), ("variables", varsJson labels cards), ("dyn.cims", cimsJson json),
      ("samples", .arr (fs.map (frameJson enc)))]) "variables" = .ok (varsJson labels cards) := rfl
  have k4 : JVal.key (.obj [("dyn.str", edgesJson table), ("variables", varsJson labels cards), ("dyn.cims", cimsJson json),
      ("samples", .arr (fs.map (frameJson enc)))]) "dyn.cims" = .ok (cimsJson json) := rfl
  have k0 : pyGetZ (readJsonFile (.arr [.obj [("dyn.str", edgesJson table), ("variables", varsJson labels cards), ("dyn.cims", cimsJson json),
      ("samples", .arr (fs.map (frameJson enc)))]])) 0 = .ok (.obj [("dyn.str", edgesJson table), ("variables", varsJson labels cards),
      ("dyn.cims", cimsJson json), ("samples", .arr (fs.map (frameJson enc)))]) := rfl
  have k5 : JVal.items (.arr (fs.map (frameJson enc))) = .ok (fs.map (frameJson enc)) := rfl
  have k6 := frames_read_back hfs henc
  have k7 := edges_read_back table
  have k8 := vars_read_back hlen
  simp only [k0, k1, k2, k3, k4, k5, k6, optKey, Except.bind_ok']
  cases pyGet fs 0 with
  | error e => rfl
  | ok first =>
    simp only [Except.bind_ok']
    cases jsonSorter timeKey first with
    | error e => rfl
    | ok sorter =>
      simp only [Except.bind_ok']
      cases computeAllDeltas sorter fs with
      | error e => rfl
      | ok conc =>
        simp only [Except.bind_ok']
        cases he : dataFrame (edgesJson table) with
        | error e => rw [he] at k7; cases k7
        | ok fe =>
          rw [he] at k7
          simp only [Except.bind_ok'] at k7
          cases hv : dataFrame (varsJson labels cards) with
          | error e => rw [hv] at k8; cases k8
          | ok fv =>
            rw [hv] at k8
            simp only [Except.bind_ok'] at k8
            simp only [Except.bind_ok', k7, k8]
            rfl

/-- **C89.**  A file written with `JsonExporter` from a usable network and any trajectories sampled from it, and read with `JsonImporter`, gives
exactly what importing the frames themselves gives, whatever the outcome of that: the times and states are read back unchanged (`to_json` may round
numbers that have more than four decimals in any way), the trajectories in the order in which they were added, the variables in the same order with
their cardinalities, the edges in the same order; and the CIM dictionaries as exported. -/
theorem exported_file_reads_back {labels : List Label} {table : List Edge} {cims : List (Label × SetOfCims)} {N : Ctbn}
    (hD : Describes (SampleNet.new labels table cims) N) (hOK : N.OK) (hT : "Time" ∉ N.vars) {samples : List RawTraj}
    (hs : ∀ rows ∈ samples, ∃ tEnd maxTr draws, Samples (SampleNet.new labels table cims) tEnd maxTr draws rows)
    {enc : ℚ → ℚ} (henc : ∀ q, FourDecimals q → enc q = q) :
    ∃ json file, cimsToJson labels table cims = .ok json ∧
      (exporterOf labels (N.vars.map N.card) table cims (samples.map (SampleNet.frame N.vars))).outFile enc = .ok file ∧
      jsonImportFile (exportKeys (some "dyn.cims")) file 0 = (do
        let imp ← jsonImportData "Time" (samples.map (SampleNet.frame N.vars)) ⟨List.range N.vars.length, N.vars, N.vars.map N.card⟩ table
        return (imp, some (cimsJson json))) ∧
      (cimsJson json).cimDict = .ok json := by
  haveI : Nonempty SetOfCims := ⟨⟨"", [], 0, [], false, []⟩⟩
  have hc := hD.cims
  choose! sf hsf using hc
  have hjson := cimsToJson_spec hD hOK hsf
  have hvn : labels = N.vars := hD.vnames
  obtain ⟨json, hj⟩ : ∃ json, cimsToJson labels table cims = .ok json := ⟨_, hjson⟩
  refine ⟨json, .arr [.obj [("dyn.str", edgesJson table), ("variables", varsJson labels (N.vars.map N.card)), ("dyn.cims", cimsJson json),
    ("samples", .arr ((samples.map (SampleNet.frame N.vars)).map (frameJson enc)))]], hj, ?_, ?_, cimDict_reads_back _⟩
  · rw [exporterOf_eq]
    unfold JsonExporter.outFile
    dsimp only
    rw [hj]
    rfl
  · subst hvn
    refine import_written (by simp) ?_ ?_ rfl "Time" "Name"
    · intro f hf
      obtain ⟨rows, hr, rfl⟩ := List.mem_map.1 hf
      obtain ⟨tEnd, maxTr, draws, h⟩ := hs rows hr
      exact ⟨rows.length, sample_nonempty hD hOK h, frame_plain hOK.nodup hT rows⟩
    · intro f hf p hp q hq
      obtain ⟨rows, hr, rfl⟩ := List.mem_map.1 hf
      obtain ⟨tEnd, maxTr, draws, h⟩ := hs rows hr
      exact henc q (frame_cells (sample_fourDecimals hD hOK h) p hp q hq)

/-! ## C90: from the sampled file to the estimates, and to the sampler -/

theorem buildFromFile_eq {k : JsonKeys} {file : JVal} {indx : ℤ} {fs : List Frame} {vt : VarTable} {es : List Edge} {c : Option JVal}
    (h : jsonImportFile k file indx = (do
      let imp ← jsonImportData "Time" fs vt es
      return (imp, c))) : buildFromFile k file indx = buildFromRaw fs vt es := by
  unfold buildFromFile buildFromRaw
  rw [h]
  cases jsonImportData "Time" fs vt es with
  | error e => rfl
  | ok imp => rfl

/-- **C90** (partial).  The whole path over a file: trajectories sampled from a usable network (any number, not all of a single row), added to a
`JsonExporter`, written, read with `JsonImporter` and given to the estimator: the statistics estimated for every node with admissible
cardinalities are those of the sampled rows, and the estimated structure object has the network's variables and edges.
Missing: inadmissible cardinalities (C17, C21) and clashing labels (C03). -/
theorem sampled_file_estimable_partial {labels : List Label} {table : List Edge} {cims : List (Label × SetOfCims)} {N : Ctbn}
    (hD : Describes (SampleNet.new labels table cims) N) (hOK : N.OK) (hcl : NoSuffixClash N.vars) (hT : "Time" ∉ N.vars)
    {samples : List RawTraj}
    (hs : ∀ rows ∈ samples, ∃ tEnd maxTr draws, Samples (SampleNet.new labels table cims) tEnd maxTr draws rows)
    (hdata : ∃ rows ∈ samples, 2 ≤ rows.length) {enc : ℚ → ℚ} (henc : ∀ q, FourDecimals q → enc q = q) :
    ∃ (file : JVal) (p : SamplePath) (s : Structure) (t : Trajectory),
      (exporterOf labels (N.vars.map N.card) table cims (samples.map (SampleNet.frame N.vars))).outFile enc = .ok file ∧
      buildFromFile (exportKeys (some "dyn.cims")) file 0 = .ok p ∧ p.struct = some s ∧ p.trajectories = some t ∧
      s.labels = N.vars ∧ s.edges = table ∧
      ∀ (g : NetworkGraph), Reach s g → ∀ n ∈ N.vars, ∀ (c : Nat) (ps : List Nat), s.getStatesNumber n = .ok c →
        ps.map Except.ok = (parentsOf g n).map s.getStatesNumber → ExactCards c ps →
        ∃ sofc, ParamsEst.estimate t g n = .ok sofc ∧
          (sofc.cims.map (fun cim => cim.resTimes.sum)).sum = (samples.map spanOf).sum ∧
          (∀ u, u ∈ sofc.pCombs ↔ InRangeAssign ps u) ∧
          ∀ (r : Nat) (u : List Nat), sofc.pCombs[r]? = some u → ∃ cim : Cim, sofc.cims[r]? = some cim ∧
            (∀ x, x < c → cim.resTimes[x]? = some (rawResidence N.vars samples n (parentsOf g n) x u)) ∧
            (∀ x x', x < c → x' < c → x ≠ x' →
              entry2 cim.trans x x' = some (rawTransitions N.vars samples n (parentsOf g n) x x' u)) := by
  obtain ⟨json, file, -, h2, h3, -⟩ := exported_file_reads_back hD hOK hT hs henc
  obtain ⟨p, s, t, k1, k2, k3, k4, k5, k6⟩ := sampled_trajectories_estimable_partial hD hOK hcl hT hs hdata table
  exact ⟨file, p, s, t, h2, (buildFromFile_eq h3).trans k1, k2, k3, k4, k5, k6⟩

/-- Without trajectories the file is written but cannot be imported. -/
theorem file_without_samples {labels : List Label} {table : List Edge} {cims : List (Label × SetOfCims)} {N : Ctbn}
    (hD : Describes (SampleNet.new labels table cims) N) (hOK : N.OK) (hT : "Time" ∉ N.vars) {enc : ℚ → ℚ}
    (henc : ∀ q, FourDecimals q → enc q = q) :
    ∃ file, (exporterOf labels (N.vars.map N.card) table cims []).outFile enc = .ok file ∧
      jsonImportFile (exportKeys (some "dyn.cims")) file 0 = .error .indexError := by
  obtain ⟨json, file, -, h2, h3, -⟩ := exported_file_reads_back (samples := []) hD hOK hT (by simp) henc
  exact ⟨file, h2, h3⟩

/-- **C91** (partial).  The network in the file is the network exported: the sampler built from the importer of a written file samples, with the same
draws, the same trajectories as the sampler that produced the file; and `import_sampled_cims` gives for every variable the matrices of all
assignments in the order in which the sampler stores them.  Missing: labels with `=`, states from 10 on and networks without edges, which
are misread (C77); files without trajectories (`file_without_samples`). -/
theorem sampler_from_file_partial {labels : List Label} {table : List Edge} {cims : List (Label × SetOfCims)} {N : Ctbn}
    (hD : Describes (SampleNet.new labels table cims) N) (hOK : N.OK) (hT : "Time" ∉ N.vars) (hcl : NoSuffixClash N.vars) (htab : table ≠ [])
    (hplain : ∀ v ∈ N.vars, PlainLabel v) (h10 : ∀ v ∈ N.vars, N.card v ≤ 10) {samples : List RawTraj}
    (hs : ∀ rows ∈ samples, ∃ tEnd maxTr draws, Samples (SampleNet.new labels table cims) tEnd maxTr draws rows) (hne : samples ≠ [])
    {enc : ℚ → ℚ} (henc : ∀ q, FourDecimals q → enc q = q) :
    ∃ file net', (exporterOf labels (N.vars.map N.card) table cims (samples.map (SampleNet.frame N.vars))).outFile enc = .ok file ∧
      samplerFromFile (exportKeys (some "dyn.cims")) file 0 = .ok net' ∧ Describes net' N ∧
      (∀ tEnd maxTr draws fuel, (SampleNet.new labels table cims).sample tEnd maxTr draws fuel = net'.sample tEnd maxTr draws fuel) ∧
      ∃ read, importSampledCims file 0 "dyn.cims" = .ok read ∧ read.map Prod.fst = N.vars ∧
        ∀ (v : Label) (ms : List (List (List ℚ))), (v, ms) ∈ read → ∃ s, dictGet cims v = .ok s ∧ ms = s.pCombs.map (N.cim v) := by
  obtain ⟨json, file, h1, h2, h3, h4⟩ := exported_file_reads_back hD hOK hT hs henc
  obtain ⟨json', net', k1, k2, k3, k4⟩ := network_reads_back_partial hD hOK htab hplain h10
  rw [h1] at k1
  cases k1
  have hvn : labels = N.vars := hD.vnames
  have hwid : ∀ rows ∈ samples, ∀ r ∈ rows, r.2.length = N.vars.length := by
    intro rows hr
    obtain ⟨tEnd, maxTr, draws, h⟩ := hs rows hr
    exact (sample_in_range hD hOK h).1
  obtain ⟨imp, himp, hiv, hie⟩ : ∃ imp, jsonImportData "Time" (samples.map (SampleNet.frame N.vars))
      ⟨List.range N.vars.length, N.vars, N.vars.map N.card⟩ table = .ok imp ∧
      imp.vars = some ⟨List.range N.vars.length, N.vars, N.vars.map N.card⟩ ∧ imp.edges = some table := by
    cases samples with
    | nil => exact absurd rfl hne
    | cons a rest =>
      have hall : ∀ L : List RawTraj, (∀ rows ∈ L, ∀ r ∈ rows, r.2.length = N.vars.length) →
          List.Forall₂ (fun f raw => Holds "Time" N.vars f raw ∧ LastLabelUnique f) (L.map (SampleNet.frame N.vars)) L := by
        intro L
        induction L with
        | nil => intro _; exact .nil
        | cons b L ih =>
          intro hb
          have := frame_holds hOK.nodup hT (hb b (by simp))
          exact .cons ⟨this.1, this.2.1⟩ (ih (fun rows hr => hb rows (by simp [hr])))
      obtain ⟨C', himp, -⟩ := preprocessing_yields_consecutive_pairs N.vars hOK.nonempty hcl (SampleNet.frame N.vars a)
        (rest.map (SampleNet.frame N.vars)) (a :: rest) (frame_holds hOK.nodup hT (hwid a (by simp))).2.2 (hall _ hwid)
        ⟨List.range N.vars.length, N.vars, N.vars.map N.card⟩ table
      exact ⟨_, himp, rfl, rfl⟩
  refine ⟨file, net', h2, ?_, k3, k4, ?_⟩
  · unfold samplerFromFile
    rw [h3, himp]
    simp only [Except.bind_ok', Except.pure_eq_ok', hiv, hie, h4]
    rw [← hvn]
    exact k2
  · haveI : Nonempty SetOfCims := ⟨⟨"", [], 0, [], false, []⟩⟩
    have hc := hD.cims
    choose! sf hsf using hc
    have hjson := cimsToJson_spec hD hOK hsf
    rw [h1] at hjson
    have hjson := Except.ok.inj hjson
    have hkey : ∃ d, pyGetZ (readJsonFile file) 0 = .ok d ∧ d.key "dyn.cims" = .ok (cimsJson json) := by
      rw [exporterOf_eq] at h2
      unfold JsonExporter.outFile at h2
      dsimp only at h2
      rw [h1] at h2
      cases h2
      exact ⟨_, rfl, rfl⟩
    obtain ⟨d, hd1, hd2⟩ := hkey
    refine ⟨N.vars.map (fun v => (v, (sf v).pCombs.map (N.cim v))), ?_, ?_, ?_⟩
    · unfold importSampledCims
      rw [hd1]
      simp only [Except.bind_ok', hd2]
      unfold cimsJson
      simp only [JVal.record, Except.bind_ok']
      rw [hjson, List.map_map, List.mapM_map, mapM_congr_py (f' := fun v => (.ok (v, (sf v).pCombs.map (N.cim v)) : Py _))]
      · exact mapM_pure_ok _ _
      · intro v hv
        simp only [Function.comp, List.map_map, Except.bind_ok']
        rw [List.mapM_map, mapM_congr_py (f' := fun u => (.ok (N.cim v u) : Py _))]
        · rw [mapM_pure_ok]; rfl
        · intro u hu
          simp only [Function.comp, JVal.toCim, cimRows_reads_back, Except.bind_ok']
          exact readCim_rowDict (N.cim v u) (hOK.cims v hv u (((hsf v hv).2.mem u).1 hu)).cols
    · rw [List.map_map]; exact List.map_id _
    · intro v ms hvm
      obtain ⟨w, hw, e⟩ := List.mem_map.1 hvm
      cases e
      exact ⟨sf v, (hsf v hw).1, rfl⟩

/-! ## C92: several data sets in one file -/

theorem pyGetZ_of_position {α : Type _} {l : List α} {i : ℤ} {j : Nat} {x : α} (hij : (j : ℤ) = i ∨ (j : ℤ) = i + l.length)
    (hx : l[j]? = some x) : pyGetZ l i = .ok x := by
  have hj : j < l.length := (List.getElem?_eq_some_iff.1 hx).1
  unfold pyGetZ
  rcases hij with h | h
  · rw [if_pos (by omega), ← h]
    exact pyGet_ok.2 hx
  · rw [if_neg (by omega), if_pos (by omega), ← h]
    exact pyGet_ok.2 hx

theorem pyGetZ_outside {α : Type _} {l : List α} {i : ℤ} (h : i < -(l.length : ℤ) ∨ (l.length : ℤ) ≤ i) :
    pyGetZ l i = .error .indexError := by
  unfold pyGetZ
  rcases h with h | h
  · rw [if_neg (by omega), if_neg (by omega)]
  · rw [if_pos (by omega)]
    unfold pyGet
    rw [List.getElem?_eq_none (by omega)]

/-- **C92.**  `import_data(i)` depends on one data set of the file only, the one at position `i`, counted from the end when `i` is negative: it
gives what the file that consists of that data set alone gives; an index beyond the last data set, or before the first, raises `IndexError`; and
a file that is a single data set, not a list, is read as a list of one. -/
theorem data_sets_independent (k : JsonKeys) (l : List JVal) (i : ℤ) :
    (∀ (j : Nat) fields, ((j : ℤ) = i ∨ (j : ℤ) = i + l.length) → l[j]? = some (.obj fields) →
        jsonImportFile k (.arr l) i = jsonImportFile k (.obj fields) 0) ∧
      (i < -(l.length : ℤ) ∨ (l.length : ℤ) ≤ i → jsonImportFile k (.arr l) i = .error .indexError) ∧
      (∀ fields, jsonImportFile k (.obj fields) i = jsonImportFile k (.arr [.obj fields]) i) := by
  refine ⟨?_, ?_, fun _ => rfl⟩
  · intro j fields hij h
    unfold jsonImportFile
    dsimp only
    rw [pyGetZ_of_position (l := readJsonFile (.arr l)) hij h]
    rfl
  · intro h
    unfold jsonImportFile
    dsimp only
    rw [pyGetZ_outside (l := readJsonFile (.arr l)) h]
    rfl

/-- C92 for `import_sampled_cims(raw_data, i, cims_key)`. -/
theorem sampled_cims_independent (key : String) (l : List JVal) (i : ℤ) :
    (∀ (j : Nat) fields, ((j : ℤ) = i ∨ (j : ℤ) = i + l.length) → l[j]? = some (.obj fields) →
        importSampledCims (.arr l) i key = importSampledCims (.obj fields) 0 key) ∧
      (i < -(l.length : ℤ) ∨ (l.length : ℤ) ≤ i → importSampledCims (.arr l) i key = .error .indexError) := by
  constructor
  · intro j fields hij h
    unfold importSampledCims
    rw [pyGetZ_of_position (l := readJsonFile (.arr l)) hij h]
    rfl
  · intro h
    unfold importSampledCims
    rw [pyGetZ_outside (l := readJsonFile (.arr l)) h]
    rfl

/-- A data set without the samples key: `KeyError`, whatever else is in it. -/
theorem missing_samples_key (k : JsonKeys) {fields : List (String × JVal)} (h : k.samples ∉ fields.map Prod.fst) :
    jsonImportFile k (.obj fields) 0 = .error .keyError := by
  unfold jsonImportFile
  have : JVal.key (.obj fields) k.samples = .error .keyError := by
    unfold JVal.key
    have hn : fields.find? (fun p => decide (p.1 = k.samples)) = none := by
      rw [List.find?_eq_none]
      intro p hp
      simp only [decide_eq_true_eq]
      intro e
      exact h (e ▸ List.mem_map_of_mem hp)
    simp only [hn]
  show (do let smps ← JVal.key (.obj fields) k.samples; _) = _
  rw [this]
  rfl

/-! ## C93: the name of the variables' column -/

/-- **C93 (refuted).**  `variables_key` is documented as "the key used to identify the names of the variables": it has no effect at all. -/
theorem variables_key_ignored (k : JsonKeys) (file : JVal) (indx : ℤ) (key' : String) :
    jsonImportFile { k with variablesKey := key' } file indx = jsonImportFile k file indx := rfl

/-- A data set whose variables table has the cardinality before the name. -/
def valueFirst : JVal := .obj [("samples", .arr [.arr [.obj [("Time", .num 0), ("X", .num 0)], .obj [("Time", .num 1), ("X", .num 1)],
    .obj [("Time", .num 2), ("X", .num (-1))]]]),
  ("dyn.str", .arr []), ("variables", .arr [.obj [("Value", .num 2), ("Name", .str "X")]])]

/-- A data set whose variables table has the name before the cardinality. -/
def nameFirst : JVal := .obj [("samples", .arr [.arr [.obj [("Time", .num 0), ("X", .num 0)], .obj [("Time", .num 1), ("X", .num 1)],
    .obj [("Time", .num 2), ("X", .num (-1))]]]),
  ("dyn.str", .arr []), ("variables", .arr [.obj [("Name", .str "X"), ("Value", .num 2)]])]

/-- **C93 (refuted).**  The names are taken from the first column, whatever `variables_key` says: a table that lists the cardinality first
is rejected although `variables_key` names the other column, and the same table with the columns swapped is accepted. -/
theorem variables_by_position (key : String) :
    buildFromFile ⟨"samples", "dyn.str", "variables", "Time", key, none⟩ valueFirst 0 = .error .runtimeError ∧
      ∃ p, buildFromFile ⟨"samples", "dyn.str", "variables", "Time", key, none⟩ nameFirst 0 = .ok p := by
  have h1 : buildFromFile ⟨"samples", "dyn.str", "variables", "Time", "Name", none⟩ valueFirst 0 = .error .runtimeError := by
    rfl
  have h2 : (buildFromFile ⟨"samples", "dyn.str", "variables", "Time", "Name", none⟩ nameFirst 0).isOk = true := by
    rfl
  refine ⟨h1, ?_⟩
  cases h : buildFromFile ⟨"samples", "dyn.str", "variables", "Time", "Name", none⟩ nameFirst 0 with
  | error e => rw [h] at h2; cases h2
  | ok p => exact ⟨p, h⟩

/-! ## Concrete cases -/

namespace Demo

theorem roundTo10_fixes (q : ℚ) (h : FourDecimals q) : (⌊q * 10000000000⌋ : ℚ) / 10000000000 = q := by
  obtain ⟨k, rfl⟩ := h
  have : (k / 10000 : ℚ) * 10000000000 = ((k * 1000000 : ℤ) : ℚ) := by push_cast; ring
  rw [this, Int.floor_intCast]
  push_cast
  ring

/-- C89-C91: the demo network, one trajectory, an encoder that drops the decimals from the eleventh on. -/
example : ∃ (file : JVal) (p : SamplePath),
    (exporterOf ["X", "Y"] [3, 2] [("X", "Y")] [("X", sX), ("Y", sY)]
      ([[(0, [0, 0]), (3333/10000, [0, 1]), (8333/10000, [0, 0]), (1, [-1, -1])]].map (SampleNet.frame ctbn.vars))).outFile
        (fun q => (⌊q * 10000000000⌋ : ℚ) / 10000000000) = .ok file ∧
      buildFromFile (exportKeys (some "dyn.cims")) file 0 = .ok p := by
  obtain ⟨file, p, s, t, h1, h2, -⟩ := sampled_file_estimable_partial (N := ctbn) describes ok
    (samples := [[(0, [0, 0]), (3333/10000, [0, 1]), (8333/10000, [0, 0]), (1, [-1, -1])]]) (by
      show ∀ v ∈ ctbn.vars, v ++ "S" ∉ ctbn.vars
      decide) (by decide) (by
      intro r hr
      rw [List.mem_singleton] at hr
      subst hr
      exact ⟨_, _, _, samples3⟩) ⟨_, List.mem_singleton_self _, by decide⟩ roundTo10_fixes
  exact ⟨file, p, h1, h2⟩

example : ∃ (file : JVal) (net' : SampleNet),
    (exporterOf ["X", "Y"] [3, 2] [("X", "Y")] [("X", sX), ("Y", sY)]
      ([[(0, [0, 0]), (3333/10000, [0, 1]), (8333/10000, [0, 0]), (1, [-1, -1])]].map (SampleNet.frame ctbn.vars))).outFile
        (fun q => (⌊q * 10000000000⌋ : ℚ) / 10000000000) = .ok file ∧
      samplerFromFile (exportKeys (some "dyn.cims")) file 0 = .ok net' ∧ Describes net' ctbn := by
  obtain ⟨file, net', h1, h2, h3, -⟩ := sampler_from_file_partial (N := ctbn) describes ok
    (samples := [[(0, [0, 0]), (3333/10000, [0, 1]), (8333/10000, [0, 0]), (1, [-1, -1])]]) (by decide) (by
      show ∀ v ∈ ctbn.vars, v ++ "S" ∉ ctbn.vars
      decide) (by simp) (by
      intro v hv
      simp only [ctbn, List.mem_cons, List.not_mem_nil, or_false] at hv
      rcases hv with rfl | rfl <;> simp [PlainLabel]) (by
      intro v hv
      simp only [ctbn, List.mem_cons, List.not_mem_nil, or_false] at hv
      rcases hv with rfl | rfl <;> decide) (by
      intro r hr
      rw [List.mem_singleton] at hr
      subst hr
      exact ⟨_, _, _, samples3⟩) (by simp) roundTo10_fixes
  exact ⟨file, net', h1, h2, h3⟩

/-- C92: the second of two data sets. -/
example (k : JsonKeys) : jsonImportFile k (.arr [valueFirst, nameFirst]) 1 = jsonImportFile k nameFirst 0 :=
  (data_sets_independent k [valueFirst, nameFirst] 1).1 1 _ (Or.inl rfl) rfl

/-- `import_data(-2)` on a file of two data sets reads the first one, `import_data(-3)` fails. -/
example (k : JsonKeys) : jsonImportFile k (.arr [valueFirst, nameFirst]) (-2) = jsonImportFile k valueFirst 0 ∧
    jsonImportFile k (.arr [valueFirst, nameFirst]) (-3) = .error .indexError :=
  ⟨(data_sets_independent k [valueFirst, nameFirst] (-2)).1 0 _ (Or.inr rfl) rfl,
    (data_sets_independent k [valueFirst, nameFirst] (-3)).2.1 (Or.inl (by decide))⟩

example : jsonImportFile ⟨"samples", "dyn.str", "variables", "Time", "Name", some "dyn.cims"⟩ nameFirst 0 = .error .keyError := by rfl

end Demo

end PyCTBN
