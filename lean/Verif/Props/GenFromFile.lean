import Verif.Props.TableRead
import Verif.Props.Json

/-!
# C91 for the generator that reads the imported tables by column names
-/

namespace PyCTBN
open Spec

theorem readNodes_keys : ∀ (json : List (Label × List (String × JsonCim))) (cims : List (Label × SetOfCims)), json.mapM (fun p => do
    let s ← readNode p.1 p.2
    return (p.1, s)) = .ok cims → cims.map Prod.fst = json.map Prod.fst := by
  intro json
  induction json with
  | nil => intro cims h; cases h; rfl
  | cons p json ih =>
    intro cims h
    rw [List.mapM_cons] at h
    obtain ⟨x, h1, h⟩ := Py.bind_inv h
    obtain ⟨xs, h2, h⟩ := Py.bind_inv h
    cases h
    obtain ⟨s, -, h1⟩ := Py.bind_inv h1
    cases h1
    rw [List.map_cons, List.map_cons, ih xs h2]

theorem sampler_cims_keys (k : JsonKeys) (file : JVal) (indx : ℤ) {d cv : JVal} {kc : String} {json : List (Label × List (String × JsonCim))}
    (hd : pyGetZ (readJsonFile file) indx = .ok d) (hk : k.cims = some kc) (hcv : d.key kc = .ok cv) (hj : cv.cimDict = .ok json)
    (net : SampleNet) (h : samplerFromFile k file indx = .ok net) : net.cims.map Prod.fst = json.map Prod.fst := by
  unfold samplerFromFile at h
  obtain ⟨imp, h1, h⟩ := Py.bind_inv h
  have hc : imp.2 = some cv := by
    unfold jsonImportFile at h1
    dsimp only at h1
    rw [hd, Except.bind_ok'] at h1
    obtain ⟨_, -, h1⟩ := Py.bind_inv h1
    obtain ⟨_, -, h1⟩ := Py.bind_inv h1
    obtain ⟨_, -, h1⟩ := Py.bind_inv h1
    obtain ⟨_, -, h1⟩ := Py.bind_inv h1
    obtain ⟨_, -, h1⟩ := Py.bind_inv h1
    obtain ⟨_, -, h1⟩ := Py.bind_inv h1
    obtain ⟨_, -, h1⟩ := Py.bind_inv h1
    obtain ⟨_, -, h1⟩ := Py.bind_inv h1
    obtain ⟨_, -, h1⟩ := Py.bind_inv h1
    obtain ⟨_, -, h1⟩ := Py.bind_inv h1
    obtain ⟨_, -, h1⟩ := Py.bind_inv h1
    obtain ⟨_, -, h1⟩ := Py.bind_inv h1
    obtain ⟨oc, ho, h1⟩ := Py.bind_inv h1
    cases h1
    rw [hk] at ho
    unfold optKey at ho
    dsimp only at ho
    rw [hcv] at ho
    cases ho
    rfl
  split at h
  · rename_i vt es c e1 e2 e3
    rw [hc] at e3
    cases e3
    rw [hj, Except.bind_ok'] at h
    unfold SampleNet.ofImporter at h
    split at h
    · cases h
    · obtain ⟨cims, hm, h⟩ := Py.bind_inv h
      cases h
      exact readNodes_keys json cims hm
  · cases h

/-- **C91** (partial; generator reading by names).  The `TrajectoryGenerator` built from the importer of a written file, which takes the parents from the columns "From" and "To" of
the imported frame, is built without exception, describes the exported network and samples, with the same draws, the same trajectories.  Missing: as in
`sampler_from_file_partial`. -/
theorem generator_from_file_partial {labels : List Label} {table : List Edge} {cims : List (Label × SetOfCims)} {N : Ctbn}
    (hD : Describes (SampleNet.new labels table cims) N) (hOK : N.OK) (hT : "Time" ∉ N.vars) (hcl : NoSuffixClash N.vars) (htab : table ≠ [])
    (hplain : ∀ v ∈ N.vars, PlainLabel v) (h10 : ∀ v ∈ N.vars, N.card v ≤ 10) {samples : List RawTraj}
    (hs : ∀ rows ∈ samples, ∃ tEnd maxTr draws, Samples (SampleNet.new labels table cims) tEnd maxTr draws rows) (hne : samples ≠ [])
    {enc : ℚ → ℚ} (henc : ∀ q, FourDecimals q → enc q = q) :
    ∃ file net', (exporterOf labels (N.vars.map N.card) table cims (samples.map (SampleNet.frame N.vars))).outFile enc = .ok file ∧
      generatorFromFile (exportKeys (some "dyn.cims")) file 0 = .ok net' ∧ Describes net' N ∧
      (∀ tEnd maxTr draws fuel, (SampleNet.new labels table cims).sample tEnd maxTr draws fuel = net'.sample tEnd maxTr draws fuel) := by
  obtain ⟨file, net', h2, hS, hD', hsame, -⟩ := sampler_from_file_partial hD hOK hT hcl htab hplain h10 hs hne henc
  refine ⟨file, net', h2, ?_, hD', hsame⟩
  have hvn : labels = N.vars := hD.vnames
  haveI : Nonempty SetOfCims := ⟨⟨"", [], 0, [], false, []⟩⟩
  have hc := hD.cims
  choose! sf hsf using hc
  have hjson := cimsToJson_spec hD hOK hsf
  set json := N.vars.map (fun v => (v, (sf v).pCombs.map (fun u => (keyOf v (N.parents v) u, (N.cim v u).map rowDict)))) with hjs
  have hjk : json.map Prod.fst = N.vars := by
    rw [hjs, List.map_map]
    exact List.map_id _
  set rs := List.zipWith (fun (l : Label) (c : Nat) => [("Name", JVal.str l), ("Value", JVal.num (c : ℚ))]) labels (N.vars.map N.card) with hrs
  have hvars : varsJson labels (N.vars.map N.card) = .arr (rs.map .obj) := by
    unfold varsJson
    rw [hrs, List.map_zipWith]
  set fields : List (String × JVal) := [("variables", .arr (rs.map .obj)), ("dyn.cims", cimsJson json),
    ("samples", .arr ((samples.map (SampleNet.frame N.vars)).map (frameJson enc)))] with hfields
  have hedg : edgesJson table = edgeRecords (table.map (fun e => (e, false))) := by
    unfold edgesJson edgeRecords
    rw [List.map_map, List.map_map]
    rfl
  have hfile : file = .arr [edgeFile (exportKeys (some "dyn.cims")) fields (table.map (fun e => (e, false)))] := by
    rw [exporterOf_eq] at h2
    unfold JsonExporter.outFile at h2
    dsimp only at h2
    rw [hjson, Except.bind_ok'] at h2
    have := (Except.ok.inj h2).symm
    rw [this, hvars, hedg]
    rfl
  have hd : pyGetZ (readJsonFile file) 0 = .ok (edgeFile (exportKeys (some "dyn.cims")) fields (table.map (fun e => (e, false)))) := by
    rw [hfile]; rfl
  have hrne : ∃ r ∈ rs, r.map Prod.fst = ["Name", "Value"] := by
    cases hl : N.vars with
    | nil => exact absurd hl hOK.nonempty
    | cons v vs => rw [hrs, hvn, hl]; exact ⟨_, List.mem_cons_self, rfl⟩
  obtain ⟨r, hr, hr2⟩ := hrne
  have hN : (recordsFrame rs).column "Name" = .ok (rs.map (fun r => recordCell r "Name")) := by
    rw [recordsFrame_column, if_pos ((mem_recordHeader rs _).2 ⟨r, hr, by rw [hr2]; simp⟩)]
  have hV : (recordsFrame rs).column "Value" = .ok (rs.map (fun r => recordCell r "Value")) := by
    rw [recordsFrame_column, if_pos ((mem_recordHeader rs _).2 ⟨r, hr, by rw [hr2]; simp⟩)]
  refine generator_of_sampler (exportKeys (some "dyn.cims")) file 0 fields (table.map (fun e => (e, false))) hd ?_ (vv := .arr (rs.map .obj)) rfl (dataFrame_arr rs) hN hV net' hS ?_
  · cases table with
    | nil => rfl
    | cons e t => rfl
  · intro p hp
    have hk := sampler_cims_keys (exportKeys (some "dyn.cims")) file 0 hd rfl (cv := cimsJson json) rfl (cimDict_reads_back json) net' hS
    rw [hD'.vnames, ← hjk, ← hk]
    exact List.mem_map_of_mem hp

namespace Demo

example : ∃ (file : JVal) (net' : SampleNet),
    (exporterOf ["X", "Y"] [3, 2] [("X", "Y")] [("X", sX), ("Y", sY)]
      ([[(0, [0, 0]), (3333/10000, [0, 1]), (8333/10000, [0, 0]), (1, [-1, -1])]].map (SampleNet.frame ctbn.vars))).outFile
        (fun q => (⌊q * 10000000000⌋ : ℚ) / 10000000000) = .ok file ∧
      generatorFromFile (exportKeys (some "dyn.cims")) file 0 = .ok net' ∧ Describes net' ctbn := by
  obtain ⟨file, net', h1, h2, h3, -⟩ := generator_from_file_partial (N := ctbn) describes ok
    (samples := [[(0, [0, 0]), (3333/10000, [0, 1]), (8333/10000, [0, 0]), (1, [-1, -1])]]) (by decide) (by
      show ∀ v ∈ ctbn.vars, v ++ "S" ∉ ctbn.vars
      decide) (by simp) (by
      intro v hv
      simp only [ctbn, List.mem_cons, List.not_mem_nil, or_false] at hv
      rcases hv with rfl | rfl <;> simp [PlainLabel]) (by
      intro v hv
      simp only [ctbn, List.mem_cons, List.not_mem_nil, or_false] at hv
      rcases hv with rfl | rfl <;> decide) (by
      intro r hr
      rw [List.mem_singleton] at hr
      subst hr
      exact ⟨_, _, _, samples3⟩) (by simp) roundTo10_fixes
  exact ⟨file, net', h1, h2, h3⟩

end Demo

end PyCTBN
