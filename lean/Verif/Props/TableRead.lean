import Verif.Model.TableRead
import Verif.Lemmas.Json

/-!
# C229: the edge table is read by position for estimation and by column name for sampling
-/

namespace PyCTBN
open Spec

/-- An edge as a record of the file: `true` if its "To" is written before its "From". -/
def edgeRecord (x : Edge × Bool) : List (String × JVal) :=
  if x.2 then [("To", .str x.1.2), ("From", .str x.1.1)] else [("From", .str x.1.1), ("To", .str x.1.2)]

/-- The edges of a network as the JSON value a user may write: each record with its two keys in either order. -/
def edgeRecords (es : List (Edge × Bool)) : JVal := .arr ((es.map edgeRecord).map .obj)

theorem mem_recordHeader (rs : List (List (String × JVal))) (n : String) : n ∈ recordHeader rs ↔ ∃ r ∈ rs, n ∈ r.map Prod.fst := by
  have key : ∀ (rs : List (List (String × JVal))) (acc : List String),
      n ∈ rs.foldl (fun acc r => acc ++ (r.map Prod.fst).filter (fun n => decide (n ∉ acc))) acc ↔ n ∈ acc ∨ ∃ r ∈ rs, n ∈ r.map Prod.fst := by
    intro rs
    induction rs with
    | nil => simp
    | cons r rs ih =>
      intro acc
      rw [List.foldl_cons, ih]
      simp only [List.mem_append, List.mem_filter, decide_eq_true_eq, List.mem_cons, exists_eq_or_imp]
      by_cases h : n ∈ acc <;> simp [h]
  unfold recordHeader
  rw [key]
  simp

theorem range_filter {α β : Type} (l : List α) (p : α → Bool) (g : α → β) :
    ((List.range l.length).filter (fun i => (l[i]?).any p)).filterMap (fun i => (l[i]?).map g) = (l.filter p).map g := by
  induction l with
  | nil => rfl
  | cons a l ih =>
    rw [List.length_cons, List.range_succ_eq_map, List.filter_cons, List.filter_cons]
    have h1 : ((List.map Nat.succ (List.range l.length)).filter (fun i => ((a :: l)[i]?).any p)).filterMap (fun i => ((a :: l)[i]?).map g) = (l.filter p).map g := by
      rw [List.filter_map, List.filterMap_map, ← ih]
      rfl
    by_cases h : p a = true
    · simp only [List.getElem?_cons_zero, Option.any_some, h, if_true, List.filterMap_cons, Option.map_some, List.map_cons, h1]
    · simp only [List.getElem?_cons_zero, Option.any_some, h, if_false, Bool.false_eq_true, h1]

theorem recordsFrame_column (rs : List (List (String × JVal))) (n : String) :
    (recordsFrame rs).column n = if n ∈ recordHeader rs then .ok (rs.map (fun r => recordCell r n)) else .error .keyError := by
  unfold JFrame.column recordsFrame
  dsimp only
  have : ∀ l : List String, (l.map (fun n => (n, rs.map (fun r => recordCell r n)))).find? (fun p => decide (p.1 = n))
      = if n ∈ l then some (n, rs.map (fun r => recordCell r n)) else none := by
    intro l
    induction l with
    | nil => rfl
    | cons a l ih =>
      rw [List.map_cons, List.find?_cons]
      by_cases h : a = n
      · subst h; simp
      · have h' : n ≠ a := fun e => h e.symm
        simp [h, ih, h']
  rw [this]
  by_cases h : n ∈ recordHeader rs <;> simp [h]

theorem edgeRecord_to (y : Edge × Bool) : recordCell (edgeRecord y) "To" = .str y.1.2 := by
  obtain ⟨e, b⟩ := y
  cases b <;> simp [edgeRecord, recordCell]

theorem edgeRecord_from (y : Edge × Bool) : recordCell (edgeRecord y) "From" = .str y.1.1 := by
  obtain ⟨e, b⟩ := y
  cases b <;> simp [edgeRecord, recordCell]

/-- **C229** (reading by name).  For any records: if neither "To" nor "From" is missing from all of them, the parents of `v` are the "From" of the records whose "To" is `v`
and which have a value that is not `null` for every key of every record; otherwise `KeyError`. -/
theorem parents_of_records (rs : List (List (String × JVal))) (v : Label) :
    (recordsFrame rs).parentsOf v =
      if (∃ r ∈ rs, "To" ∈ r.map Prod.fst) ∧ (∃ r ∈ rs, "From" ∈ r.map Prod.fst) then
        .ok ((rs.filter (fun r => (recordCell r "To").isStr v && rs.all (fun r' => r'.all (fun p => !(recordCell r p.1).isNull)))).map (fun r => recordCell r "From"))
      else .error .keyError := by
  unfold JFrame.parentsOf
  rw [recordsFrame_column, recordsFrame_column]
  simp only [mem_recordHeader]
  by_cases h1 : ∃ r ∈ rs, "To" ∈ r.map Prod.fst
  · by_cases h2 : ∃ r ∈ rs, "From" ∈ r.map Prod.fst
    · rw [if_pos h1, if_pos h2, if_pos ⟨h1, h2⟩]
      simp only [Except.bind_ok', Except.pure_eq_ok', Except.ok.injEq]
      rw [← range_filter]
      have e : ∀ i : Nat, (((rs.map (fun r => recordCell r "To"))[i]?).any (JVal.isStr v) && (recordsFrame rs).cols.all (fun c => !(c.2[i]?).any JVal.isNull))
          = (rs[i]?).any (fun r => (recordCell r "To").isStr v && rs.all (fun r' => r'.all (fun p => !(recordCell r p.1).isNull))) := by
        intro i
        cases hi : rs[i]? with
        | none => simp [hi]
        | some r =>
          have : (recordsFrame rs).cols.all (fun c => !(c.2[i]?).any JVal.isNull) = rs.all (fun r' => r'.all (fun p => !(recordCell r p.1).isNull)) := by
            have hc : ∀ n : String, ((fun c : String × List JVal => !(c.2[i]?).any JVal.isNull) ∘ fun n => (n, rs.map (fun r => recordCell r n))) n = !(recordCell r n).isNull := by
              intro n; simp [hi]
            have hcols : (recordsFrame rs).cols = (recordHeader rs).map (fun n => (n, rs.map (fun r => recordCell r n))) := rfl
            rw [hcols, List.all_map, Bool.eq_iff_iff, List.all_eq_true, List.all_eq_true]
            constructor
            · intro h r' hr'
              rw [List.all_eq_true]
              intro p hp
              have := h p.1 ((mem_recordHeader rs p.1).2 ⟨r', hr', List.mem_map_of_mem hp⟩)
              rwa [hc] at this
            · intro h n hn
              obtain ⟨r', hr', hn'⟩ := (mem_recordHeader rs n).1 hn
              obtain ⟨p, hp, rfl⟩ := List.mem_map.1 hn'
              rw [hc]
              exact List.all_eq_true.1 (h r' hr') p hp
          rw [this]
          simp [hi]
      have hsz : (recordsFrame rs).size = rs.length := rfl
      rw [hsz]
      congr 1
      · funext i
        rw [List.getElem?_map]
      · congr 1
        funext i
        exact e i
    · rw [if_pos h1, if_neg h2, if_neg (c := _ ∧ _) (fun h => h2 h.2)]
      rfl
  · rw [if_neg h1, if_neg (c := _ ∧ _) (fun h => h1 h.1)]
    rfl

/-- **C229** (generator).  Whatever the order of the two keys in each record, the parents of a variable are the origins of the edges ending in it, in the order of the file; a
file without edges is a `KeyError`. -/
theorem edges_by_name (es : List (Edge × Bool)) (v : Label) :
    (do (← dataFrame (edgeRecords es)).parentsOf v) =
      if es = [] then .error .keyError else .ok (((es.map Prod.fst).filter (fun e => decide (e.2 = v))).map (fun e => .str e.1)) := by
  unfold edgeRecords
  rw [dataFrame_arr, Except.bind_ok', parents_of_records]
  cases es with
  | nil => simp
  | cons x es =>
    rw [if_pos, if_neg (by simp)]
    · congr 1
      generalize x :: es = l
      have hall : ∀ y : Edge × Bool, (l.map edgeRecord).all (fun r' => r'.all (fun p => !(recordCell (edgeRecord y) p.1).isNull)) = true := by
        intro y
        rw [List.all_eq_true]
        intro r' hr'
        obtain ⟨z, _, rfl⟩ := List.mem_map.1 hr'
        rw [List.all_eq_true]
        intro p hp
        have hp' : p.1 = "From" ∨ p.1 = "To" := by
          unfold edgeRecord at hp
          split at hp <;> simp only [List.mem_cons, List.not_mem_nil, or_false] at hp <;> rcases hp with rfl | rfl <;> simp
        rcases hp' with e | e <;> rw [e]
        · rw [edgeRecord_from]; rfl
        · rw [edgeRecord_to]; rfl
      have hto := edgeRecord_to
      have hfr := edgeRecord_from
      rw [List.filter_map, List.map_map, List.filter_map, List.map_map]
      have h1 : l.filter ((fun r => (recordCell r "To").isStr v && (l.map edgeRecord).all (fun r' => r'.all (fun p => !(recordCell r p.1).isNull))) ∘ edgeRecord)
          = l.filter ((fun e => decide (e.2 = v)) ∘ Prod.fst) := by
        apply List.filter_congr
        intro y _
        simp only [Function.comp_apply, hall y, hto y, Bool.and_true, JVal.isStr]
      rw [h1]
      apply List.map_congr_left
      intro y _
      exact hfr y
    · refine ⟨⟨edgeRecord x, by simp, ?_⟩, ⟨edgeRecord x, by simp, ?_⟩⟩ <;> (unfold edgeRecord; split <;> simp)

/-- **C229** (estimation).  `build_structure` takes the two columns as they stand in the frame, that is in the order of the keys of the *first* record: if that one
begins with "To", all edges are reversed. -/
theorem edges_by_position (es : List (Edge × Bool)) :
    (do (← dataFrame (edgeRecords es)).toEdges) =
      .ok (if (es.head?.map Prod.snd).getD false then es.map (fun x => (x.1.2, x.1.1)) else es.map Prod.fst) := by
  unfold edgeRecords
  rw [dataFrame_arr, Except.bind_ok']
  cases es with
  | nil => rfl
  | cons x es =>
    have hto := edgeRecord_to
    have hfr := edgeRecord_from
    have hcell : ∀ (l : List (Edge × Bool)) (g : Edge → Label) (n : String), (∀ y, recordCell (edgeRecord y) n = .str (g y.1)) →
        ((l.map edgeRecord).map (fun r => recordCell r n)).mapM JVal.node = .ok (l.map (fun y => g y.1)) := by
      intro l g n h
      induction l with
      | nil => rfl
      | cons y l ih =>
        rw [List.map_cons, List.map_cons, List.mapM_cons, h y, ih]
        rfl
    have hzip : ∀ l : List (Edge × Bool), (l.map (fun y => y.1.1)).zip (l.map (fun y => y.1.2)) = l.map Prod.fst := by
      intro l; rw [List.zip_map', List.map_congr_left]; intro y _; rfl
    have hzip' : ∀ l : List (Edge × Bool), (l.map (fun y => y.1.2)).zip (l.map (fun y => y.1.1)) = l.map (fun x => (x.1.2, x.1.1)) := by
      intro l; rw [List.zip_map']
    have hhead : recordHeader ((x :: es).map edgeRecord) = (edgeRecord x).map Prod.fst := by
      unfold recordHeader
      rw [List.map_cons, List.foldl_cons]
      have hacc : ([] : List String) ++ ((edgeRecord x).map Prod.fst).filter (fun n => decide (n ∉ ([] : List String))) = (edgeRecord x).map Prod.fst := by simp
      rw [hacc]
      clear hacc
      induction es with
      | nil => rfl
      | cons y es ih =>
        rw [List.map_cons, List.foldl_cons]
        have : ((edgeRecord y).map Prod.fst).filter (fun n => decide (n ∉ (edgeRecord x).map Prod.fst)) = [] := by
          unfold edgeRecord
          split <;> split <;> simp
        rw [this, List.append_nil]
        exact ih
    unfold recordsFrame JFrame.toEdges
    rw [hhead]
    cases hx : x.2 with
    | true =>
      have : (edgeRecord x).map Prod.fst = ["To", "From"] := by unfold edgeRecord; simp [hx]
      rw [this]
      simp only [List.map_cons (f := fun n : String => _), List.map_nil, hcell (x :: es) Prod.snd "To" hto, hcell (x :: es) Prod.fst "From" hfr]
      simp only [Except.bind_ok', Except.pure_eq_ok', List.head?_cons, Option.map_some, Option.getD_some, hx, if_true]
      exact congrArg Except.ok (hzip' (x :: es))
    | false =>
      have : (edgeRecord x).map Prod.fst = ["From", "To"] := by unfold edgeRecord; simp [hx]
      rw [this]
      simp only [List.map_cons (f := fun n : String => _), List.map_nil, hcell (x :: es) Prod.snd "To" hto, hcell (x :: es) Prod.fst "From" hfr]
      simp only [Except.bind_ok', Except.pure_eq_ok', List.head?_cons, Option.map_some, Option.getD_some, hx, Bool.false_eq_true, if_false]
      exact congrArg Except.ok (hzip (x :: es))

/-! ## Files -/

theorem Py.bind_inv {α β : Type _} {x : Py α} {f : α → Py β} {b : β} (h : (x >>= f) = .ok b) : ∃ a, x = .ok a ∧ f a = .ok b := by
  cases x with
  | error e => cases h
  | ok a => exact ⟨a, rfl, h⟩

/-- A data set with the given edge records; the other entries are arbitrary. -/
def edgeFile (k : JsonKeys) (fields : List (String × JVal)) (es : List (Edge × Bool)) : JVal := .obj ((k.structureLabel, edgeRecords es) :: fields)

theorem edgeFile_structure (k : JsonKeys) (fields : List (String × JVal)) (es : List (Edge × Bool)) : (edgeFile k fields es).key k.structureLabel = .ok (edgeRecords es) := by
  unfold edgeFile JVal.key
  simp

theorem edgeFile_other (k : JsonKeys) (fields : List (String × JVal)) (es es' : List (Edge × Bool)) {n : String} (h : k.structureLabel ≠ n) :
    (edgeFile k fields es).key n = (edgeFile k fields es').key n := by
  unfold edgeFile JVal.key
  simp [h]

/-- **C229** (estimation, files).  The prior edges of the structure built from a file: those of the file if its first edge record begins with "From", the reversed ones if it
begins with "To". -/
theorem prior_edges_by_position (k : JsonKeys) (file : JVal) (indx : ℤ) (fields : List (String × JVal)) (es : List (Edge × Bool))
    (hf : pyGetZ (readJsonFile file) indx = .ok (edgeFile k fields es)) (p : SamplePath) (hp : buildFromFile k file indx = .ok p) :
    ∃ s, p.struct = some s ∧ s.edges = if (es.head?.map Prod.snd).getD false then es.map (fun x => (x.1.2, x.1.1)) else es.map Prod.fst := by
  unfold buildFromFile at hp
  obtain ⟨imp, h1, hp⟩ := Py.bind_inv hp
  obtain ⟨p1, h2, hp⟩ := Py.bind_inv hp
  obtain ⟨p2, h3, hp⟩ := Py.bind_inv hp
  have hedges : imp.1.edges = some (if (es.head?.map Prod.snd).getD false then es.map (fun x => (x.1.2, x.1.1)) else es.map Prod.fst) := by
    unfold jsonImportFile at h1
    dsimp only at h1
    rw [hf, Except.bind_ok'] at h1
    obtain ⟨_, -, h1⟩ := Py.bind_inv h1
    obtain ⟨_, -, h1⟩ := Py.bind_inv h1
    obtain ⟨_, -, h1⟩ := Py.bind_inv h1
    obtain ⟨_, -, h1⟩ := Py.bind_inv h1
    obtain ⟨_, -, h1⟩ := Py.bind_inv h1
    obtain ⟨_, -, h1⟩ := Py.bind_inv h1
    rw [edgeFile_structure, Except.bind_ok'] at h1
    obtain ⟨fr, e1, h1⟩ := Py.bind_inv h1
    obtain ⟨E, e2, h1⟩ := Py.bind_inv h1
    have hE := edges_by_position es
    rw [e1, Except.bind_ok', e2] at hE
    obtain ⟨_, -, h1⟩ := Py.bind_inv h1
    obtain ⟨_, -, h1⟩ := Py.bind_inv h1
    obtain ⟨_, -, h1⟩ := Py.bind_inv h1
    obtain ⟨_, -, h1⟩ := Py.bind_inv h1
    cases h1
    exact congrArg some (Except.ok.inj hE)
  have hi1 : p1.importer = imp.1 := by
    unfold SamplePath.new at h2
    split at h2
    · cases h2
    · split at h2
      · cases h2
      · split at h2
        · split at h2
          · cases h2
          · cases h2; rfl
        · cases h2; rfl
  have hi2 : p2.importer.edges = imp.1.edges := by
    unfold SamplePath.buildTrajectories at h3
    split at h3
    · cases h3
    · obtain ⟨tr, -, h3⟩ := Py.bind_inv h3
      split at h3
      · cases h3
      · cases h3; rw [← hi1]
  unfold SamplePath.buildStructure at hp
  split at hp
  · cases hp
  · split at hp
    · cases hp
    · cases hp
      refine ⟨_, rfl, ?_⟩
      show p2.importer.edges.getD [] = _
      rw [hi2, hedges]
      rfl

theorem parentEntry_edges (es : List (Edge × Bool)) (table : JFrame) (ht : dataFrame (edgeRecords es) = .ok table) (v : Label) :
    table.parentEntry v = if es = [] then .error .keyError else .ok (v, ((es.map Prod.fst).filter (fun e => decide (e.2 = v))).map Prod.fst) := by
  have h := edges_by_name es v
  rw [ht, Except.bind_ok'] at h
  unfold JFrame.parentEntry
  rw [h]
  split
  · rfl
  · rw [Except.bind_ok']
    have hm : ∀ l : List Edge, (l.map (fun e => JVal.str e.1)).mapM JVal.node = .ok (l.map Prod.fst) := by
      intro l
      induction l with
      | nil => rfl
      | cons e l ih => rw [List.map_cons, List.mapM_cons, ih]; rfl
    rw [hm]
    rfl

/-- **C229** (generator, files).  The parents a generator has for each variable: the origins of the edges of the file that end in it, whatever the order of the keys. -/
theorem generator_parents_by_name (k : JsonKeys) (file : JVal) (indx : ℤ) (fields : List (String × JVal)) (es : List (Edge × Bool))
    (hf : pyGetZ (readJsonFile file) indx = .ok (edgeFile k fields es)) (net : SampleNet) (hn : generatorFromFile k file indx = .ok net) :
    net.parents = net.vnames.map (fun v => (v, ((es.map Prod.fst).filter (fun e => decide (e.2 = v))).map Prod.fst)) := by
  unfold generatorFromFile at hn
  rw [hf, Except.bind_ok'] at hn
  obtain ⟨_, -, hn⟩ := Py.bind_inv hn
  obtain ⟨_, -, hn⟩ := Py.bind_inv hn
  obtain ⟨_, -, hn⟩ := Py.bind_inv hn
  obtain ⟨_, -, hn⟩ := Py.bind_inv hn
  obtain ⟨_, -, hn⟩ := Py.bind_inv hn
  obtain ⟨_, -, hn⟩ := Py.bind_inv hn
  rw [edgeFile_structure, Except.bind_ok'] at hn
  obtain ⟨table, ht, hn⟩ := Py.bind_inv hn
  obtain ⟨_, -, hn⟩ := Py.bind_inv hn
  obtain ⟨vars, -, hn⟩ := Py.bind_inv hn
  obtain ⟨cims, -, hn⟩ := Py.bind_inv hn
  unfold generatorFromTables at hn
  obtain ⟨_, -, hn⟩ := Py.bind_inv hn
  obtain ⟨names, -, hn⟩ := Py.bind_inv hn
  obtain ⟨parents, hpar, hn⟩ := Py.bind_inv hn
  rw [mapM_congr_py (fun v _ => parentEntry_edges es table ht v)] at hpar
  have hres : net.vnames = names ∧ net.parents = parents := by
    split at hn
    · cases hn
    · obtain ⟨_, -, hn⟩ := Py.bind_inv hn
      obtain ⟨_, -, hn⟩ := Py.bind_inv hn
      cases hn
      exact ⟨rfl, rfl⟩
  rw [hres.1, hres.2]
  by_cases he : es = []
  · simp only [if_pos he] at hpar
    cases names with
    | nil => cases hpar; rfl
    | cons v names => rw [List.mapM_cons] at hpar; cases hpar
  · simp only [if_neg he] at hpar
    rw [mapM_ok_map (g := fun v => (v, ((es.map Prod.fst).filter (fun e => decide (e.2 = v))).map Prod.fst)) (fun _ _ => rfl)] at hpar
    exact (Except.ok.inj hpar).symm

/-- **C229** (generator, key order).  Two files that differ only in the order of the two keys in the edge records give the same generator, or the same exception. -/
theorem generator_ignores_key_order (k : JsonKeys) (fields : List (String × JVal)) (es es' : List (Edge × Bool)) (same : es.map Prod.fst = es'.map Prod.fst)
    (h1 : k.structureLabel ≠ k.samples) (h2 : k.structureLabel ≠ k.variablesLabel) (h3 : k.cims ≠ some k.structureLabel) (file file' : JVal) (indx : ℤ)
    (hf : pyGetZ (readJsonFile file) indx = .ok (edgeFile k fields es)) (hf' : pyGetZ (readJsonFile file') indx = .ok (edgeFile k fields es')) :
    generatorFromFile k file indx = generatorFromFile k file' indx := by
  have hopt : optKey (edgeFile k fields es) k.cims = optKey (edgeFile k fields es') k.cims := by
    cases hk : k.cims with
    | none => rfl
    | some c =>
      have : k.structureLabel ≠ c := fun e => h3 (by rw [hk, e])
      unfold optKey
      dsimp only
      rw [edgeFile_other k fields es es' this]
  have hnil : es = [] ↔ es' = [] := by
    rw [← List.map_eq_nil_iff (f := Prod.fst), same, List.map_eq_nil_iff]
  have htab : ∀ vars cims, (dataFrame (edgeRecords es) >>= fun t => generatorFromTables t vars cims) = (dataFrame (edgeRecords es') >>= fun t => generatorFromTables t vars cims) := by
    intro vars cims
    have d1 : dataFrame (edgeRecords es) = .ok (recordsFrame (es.map edgeRecord)) := dataFrame_arr _
    have d2 : dataFrame (edgeRecords es') = .ok (recordsFrame (es'.map edgeRecord)) := dataFrame_arr _
    rw [d1, d2, Except.bind_ok', Except.bind_ok']
    have : (recordsFrame (es.map edgeRecord)).parentEntry = (recordsFrame (es'.map edgeRecord)).parentEntry := by
      funext v
      rw [parentEntry_edges es _ d1, parentEntry_edges es' _ d2, same]
      simp only [hnil]
    unfold generatorFromTables
    rw [this]
  unfold generatorFromFile
  rw [hf, hf', Except.bind_ok', Except.bind_ok', edgeFile_structure, edgeFile_structure, edgeFile_other k fields es es' h1, edgeFile_other k fields es es' h2, hopt]
  have d1 : dataFrame (edgeRecords es) = .ok (recordsFrame (es.map edgeRecord)) := dataFrame_arr _
  have d2 : dataFrame (edgeRecords es') = .ok (recordsFrame (es'.map edgeRecord)) := dataFrame_arr _
  simp only [d1, d2, Except.bind_ok'] at htab ⊢
  simp only [htab]

/-- **C229** (agreement).  Given that both succeed, the network a generator samples from and the prior network of the structure estimated with are the same one if and only if the first edge
record begins with "From" or with every edge of the file its reverse is in the file as well. -/
theorem estimation_and_generation_agree_iff (k : JsonKeys) (file : JVal) (indx : ℤ) (fields : List (String × JVal)) (es : List (Edge × Bool))
    (hf : pyGetZ (readJsonFile file) indx = .ok (edgeFile k fields es)) (p : SamplePath) (hp : buildFromFile k file indx = .ok p) (s : Structure) (hs : p.struct = some s)
    (net : SampleNet) (hn : generatorFromFile k file indx = .ok net) (hends : ∀ x ∈ es, x.1.1 ∈ net.vnames ∧ x.1.2 ∈ net.vnames) :
    (∀ a b, (a, b) ∈ s.edges ↔ ∃ ps, (b, ps) ∈ net.parents ∧ a ∈ ps) ↔
      ((es.head?.map Prod.snd).getD false = false ∨ ∀ e ∈ es.map Prod.fst, (e.2, e.1) ∈ es.map Prod.fst) := by
  obtain ⟨s', hs', he⟩ := prior_edges_by_position k file indx fields es hf p hp
  rw [hs] at hs'
  cases hs'
  have hpar : ∀ a b, (∃ ps, (b, ps) ∈ net.parents ∧ a ∈ ps) ↔ (a, b) ∈ es.map Prod.fst := by
    intro a b
    rw [generator_parents_by_name k file indx fields es hf net hn]
    constructor
    · rintro ⟨ps, h1, h2⟩
      obtain ⟨v, -, hv⟩ := List.mem_map.1 h1
      cases hv
      obtain ⟨e, h3, rfl⟩ := List.mem_map.1 h2
      rw [List.mem_filter, decide_eq_true_eq] at h3
      obtain ⟨h3, h4⟩ := h3
      rw [← h4]
      exact h3
    · intro h
      obtain ⟨x, hx, hxe⟩ := List.mem_map.1 h
      have hb : b ∈ net.vnames := by have := (hends x hx).2; rwa [hxe] at this
      exact ⟨_, List.mem_map.2 ⟨b, hb, rfl⟩, List.mem_map.2 ⟨(a, b), List.mem_filter.2 ⟨h, by simp⟩, rfl⟩⟩
  simp only [hpar]
  have hswap : ∀ a b, (a, b) ∈ es.map (fun x => (x.1.2, x.1.1)) ↔ (b, a) ∈ es.map Prod.fst := by
    intro a b
    constructor
    · intro h
      obtain ⟨x, hx, e⟩ := List.mem_map.1 h
      cases e
      exact List.mem_map.2 ⟨x, hx, rfl⟩
    · intro h
      obtain ⟨x, hx, e⟩ := List.mem_map.1 h
      exact List.mem_map.2 ⟨x, hx, by rw [e]⟩
  cases hb : (es.head?.map Prod.snd).getD false with
  | false =>
    rw [hb] at he
    simp only [Bool.false_eq_true, if_false] at he
    rw [he]
    simp
  | true =>
    rw [hb] at he
    simp only [if_true] at he
    rw [he]
    constructor
    · intro h
      refine .inr (fun e hm => ?_)
      exact (hswap e.1 e.2).1 ((h e.1 e.2).2 hm)
    · rintro (h | h)
      · cases h
      · intro a b
        rw [hswap]
        exact ⟨fun hm => h _ hm, fun hm => h _ hm⟩

/-! ## The reading by names agrees with the reading by position of `Model/Json.lean` -/

theorem readGenNodes (vars : JFrame) (parents : List (Label × List Label)) {c₁ c₂ : List JVal} (hN : vars.column "Name" = .ok c₁) (hV : vars.column "Value" = .ok c₂) :
    ∀ (json : List (Label × List (String × JsonCim))) (cims : List (Label × SetOfCims)), json.mapM (fun p => do
        let s ← readNode p.1 p.2
        return (p.1, s)) = .ok cims → (∀ p ∈ cims, ∃ q, dictGet parents p.1 = .ok q) → json.mapM (readGenNode vars parents) = .ok cims := by
  intro json
  induction json with
  | nil => intro cims h _; exact h
  | cons p json ih =>
    intro cims h hk
    rw [List.mapM_cons] at h ⊢
    obtain ⟨x, h1, h⟩ := Py.bind_inv h
    obtain ⟨xs, h2, h⟩ := Py.bind_inv h
    cases h
    obtain ⟨s, h3, h1⟩ := Py.bind_inv h1
    cases h1
    obtain ⟨q, hq⟩ := hk (p.1, s) (by simp)
    have : readGenNode vars parents p = .ok (p.1, s) := by
      unfold readGenNode
      rw [h3, Except.bind_ok', hq, Except.bind_ok', hN, Except.bind_ok', hV]
      rfl
    rw [this, ih xs h2 (fun p' hp' => hk p' (by simp [hp']))]
    rfl

/-- **C229** (the generator of C91).  For a file whose first edge record begins with "From", whose variables table has the columns "Name" and "Value" and whose CIMs are those of its
variables, the generator read by names is the one read by position, which C91 is about. -/
theorem generator_of_sampler (k : JsonKeys) (file : JVal) (indx : ℤ) (fields : List (String × JVal)) (es : List (Edge × Bool))
    (hf : pyGetZ (readJsonFile file) indx = .ok (edgeFile k fields es)) (hfrom : (es.head?.map Prod.snd).getD false = false)
    {vv : JVal} {vf : JFrame} {c₁ c₂ : List JVal} (hvv : (edgeFile k fields es).key k.variablesLabel = .ok vv) (hvf : dataFrame vv = .ok vf)
    (hN : vf.column "Name" = .ok c₁) (hV : vf.column "Value" = .ok c₂)
    (net : SampleNet) (h : samplerFromFile k file indx = .ok net) (hkeys : ∀ p ∈ net.cims, p.1 ∈ net.vnames) :
    generatorFromFile k file indx = .ok net := by
  unfold samplerFromFile at h
  obtain ⟨imp, h1, h⟩ := Py.bind_inv h
  unfold jsonImportFile at h1
  unfold generatorFromFile
  dsimp only at h1
  rw [hf, Except.bind_ok'] at h1 ⊢
  obtain ⟨a1, b1, h1⟩ := Py.bind_inv h1
  obtain ⟨a2, b2, h1⟩ := Py.bind_inv h1
  obtain ⟨a3, b3, h1⟩ := Py.bind_inv h1
  obtain ⟨a4, b4, h1⟩ := Py.bind_inv h1
  obtain ⟨a5, b5, h1⟩ := Py.bind_inv h1
  obtain ⟨a6, b6, h1⟩ := Py.bind_inv h1
  rw [b1, Except.bind_ok', b2, Except.bind_ok', b3, Except.bind_ok', b4, Except.bind_ok', b5, Except.bind_ok', b6, Except.bind_ok']
  rw [edgeFile_structure, Except.bind_ok'] at h1 ⊢
  obtain ⟨fr, e1, h1⟩ := Py.bind_inv h1
  obtain ⟨E, e2, h1⟩ := Py.bind_inv h1
  have hE := edges_by_position es
  rw [e1, Except.bind_ok', e2, hfrom] at hE
  have hE : E = es.map Prod.fst := Except.ok.inj hE
  rw [e1, Except.bind_ok']
  rw [hvv, Except.bind_ok', hvf, Except.bind_ok'] at h1 ⊢
  obtain ⟨vt, v1, h1⟩ := Py.bind_inv h1
  obtain ⟨oc, v2, h1⟩ := Py.bind_inv h1
  cases h1
  rw [v2, Except.bind_ok']
  dsimp only at h
  cases oc with
  | none => cases h
  | some c =>
    dsimp only at h
    obtain ⟨json, j1, h⟩ := Py.bind_inv h
    have hfirst : ∃ col, vf.firstColumn = .ok col ∧ col.mapM JVal.label = .ok vt.labels := by
      unfold JFrame.toVars at v1
      unfold JFrame.firstColumn
      split at v1
      · rename_i hc
        exfalso
        unfold JFrame.column at hN
        rw [hc] at hN
        cases hN
      · cases v1
      · rename_i a b l hc
        obtain ⟨ls, w1, v1⟩ := Py.bind_inv v1
        obtain ⟨_, -, v1⟩ := Py.bind_inv v1
        cases v1
        rw [hc]
        exact ⟨_, rfl, w1⟩
    obtain ⟨col, hc1, hc2⟩ := hfirst
    unfold SampleNet.ofImporter at h
    split at h
    · cases h
    · rename_i hne
      obtain ⟨cims, m1, h⟩ := Py.bind_inv h
      cases h
      have htp : ∀ v, tableParents E v = ((es.map Prod.fst).filter (fun e => decide (e.2 = v))).map Prod.fst := by
        intro v; rw [hE]; rfl
      have hpar : vt.labels.mapM fr.parentEntry = .ok (vt.labels.map (fun v => (v, tableParents E v))) := by
        rw [mapM_congr_py (fun v _ => parentEntry_edges es fr e1 v)]
        by_cases he : es = []
        · have : vt.labels = [] := by
            by_contra hl
            exact hne ⟨by rw [hE, he]; rfl, hl⟩
          rw [this]
          rfl
        · simp only [if_neg he]
          exact mapM_ok_map (fun v _ => by rw [htp])
      unfold generatorFromTables
      rw [hc1, Except.bind_ok', hc2, Except.bind_ok', hpar, Except.bind_ok']
      dsimp only
      rw [j1, Except.bind_ok', readGenNodes vf _ hN hV json cims m1 (fun p hp => ?_)]
      · rfl
      · have hmem := hkeys p hp
        unfold dictGet
        cases hfd : (vt.labels.map (fun v => (v, tableParents E v))).find? (fun q => decide (q.1 = p.1)) with
        | some q => exact ⟨_, rfl⟩
        | none =>
          have := List.find?_eq_none.1 hfd (p.1, tableParents E p.1) (List.mem_map.2 ⟨p.1, hmem, rfl⟩)
          simp at this

theorem column_mem {f : JFrame} {n : String} {c : List JVal} (h : f.column n = .ok c) : (n, c) ∈ f.cols := by
  unfold JFrame.column at h
  split at h
  · rename_i p hp
    cases h
    have := List.find?_some hp
    rw [decide_eq_true_eq] at this
    rw [← this]
    exact List.mem_of_find?_eq_some hp
  · cases h

/-- **C229** (requirements).  A generator is built from imported tables only if the variables table has a column and the importer has CIMs; the names are the first column; if there is a
variable, the edge table has the columns "To" and "From"; if there are CIMs, the variables table has the columns "Name" and "Value" and each CIM belongs to one of its variables.  The CIMs
are read under the keys of the imported dictionary. -/
theorem generator_requirements (table vars : JFrame) (cims : Option JVal) (net : SampleNet) (h : generatorFromTables table vars cims = .ok net) :
    (∃ n c rest, vars.cols = (n, c) :: rest ∧ c.mapM JVal.label = .ok net.vnames) ∧ net.parents.map Prod.fst = net.vnames ∧
    (net.vnames ≠ [] → (∃ c, ("To", c) ∈ table.cols) ∧ ∃ c, ("From", c) ∈ table.cols) ∧
    (net.cims ≠ [] → (∃ c, ("Name", c) ∈ vars.cols) ∧ ∃ c, ("Value", c) ∈ vars.cols) ∧ (∀ p ∈ net.cims, p.1 ∈ net.vnames) ∧
    ∃ c json, cims = some c ∧ c.cimDict = .ok json ∧ net.cims.map Prod.fst = json.map Prod.fst := by
  unfold generatorFromTables at h
  obtain ⟨col, h1, h⟩ := Py.bind_inv h
  obtain ⟨names, h2, h⟩ := Py.bind_inv h
  obtain ⟨parents, h3, h⟩ := Py.bind_inv h
  cases cims with
  | none => cases h
  | some c =>
    dsimp only at h
    obtain ⟨json, h4, h⟩ := Py.bind_inv h
    obtain ⟨cs, h5, h⟩ := Py.bind_inv h
    cases h
    have hpar : ∀ (names : List Label) (parents : List (Label × List Label)), names.mapM table.parentEntry = .ok parents →
        parents.map Prod.fst = names ∧ (names ≠ [] → (∃ c, ("To", c) ∈ table.cols) ∧ ∃ c, ("From", c) ∈ table.cols) := by
      intro names
      induction names with
      | nil => intro parents h; cases h; exact ⟨rfl, fun h => absurd rfl h⟩
      | cons v names ih =>
        intro parents h
        rw [List.mapM_cons] at h
        obtain ⟨x, x1, h⟩ := Py.bind_inv h
        obtain ⟨xs, x2, h⟩ := Py.bind_inv h
        cases h
        unfold JFrame.parentEntry JFrame.parentsOf at x1
        obtain ⟨ps, y1, x1⟩ := Py.bind_inv x1
        obtain ⟨tos, y2, y1⟩ := Py.bind_inv y1
        obtain ⟨fr, y3, -⟩ := Py.bind_inv y1
        obtain ⟨ps', -, x1⟩ := Py.bind_inv x1
        cases x1
        exact ⟨by rw [List.map_cons, (ih xs x2).1], fun _ => ⟨⟨_, column_mem y2⟩, ⟨_, column_mem y3⟩⟩⟩
    have hcim : ∀ (json : List (Label × List (String × JsonCim))) (cs : List (Label × SetOfCims)), json.mapM (readGenNode vars parents) = .ok cs →
        (cs ≠ [] → (∃ c, ("Name", c) ∈ vars.cols) ∧ ∃ c, ("Value", c) ∈ vars.cols) ∧ (∀ p ∈ cs, p.1 ∈ parents.map Prod.fst) ∧ cs.map Prod.fst = json.map Prod.fst := by
      intro json
      induction json with
      | nil => intro cs h; cases h; exact ⟨fun h => absurd rfl h, by simp, rfl⟩
      | cons p json ih =>
        intro cs h
        rw [List.mapM_cons] at h
        obtain ⟨x, x1, h⟩ := Py.bind_inv h
        obtain ⟨xs, x2, h⟩ := Py.bind_inv h
        cases h
        unfold readGenNode at x1
        obtain ⟨s, -, x1⟩ := Py.bind_inv x1
        obtain ⟨q, y1, x1⟩ := Py.bind_inv x1
        obtain ⟨c1, y2, x1⟩ := Py.bind_inv x1
        obtain ⟨c2, y3, x1⟩ := Py.bind_inv x1
        cases x1
        refine ⟨fun _ => ⟨⟨_, column_mem y2⟩, ⟨_, column_mem y3⟩⟩, ?_, by rw [List.map_cons, List.map_cons, (ih xs x2).2.2]⟩
        intro p' hp'
        rcases List.mem_cons.1 hp' with rfl | hp'
        · unfold dictGet at y1
          split at y1
          · rename_i q' hq'
            have e := List.find?_some hq'
            rw [decide_eq_true_eq] at e
            exact List.mem_map.2 ⟨q', List.mem_of_find?_eq_some hq', e⟩
          · cases y1
        · exact (ih xs x2).2.1 p' hp'
    obtain ⟨p1, p2⟩ := hpar names parents h3
    obtain ⟨c1, c2, c3⟩ := hcim json cs h5
    refine ⟨?_, p1, p2, c1, fun p hp => p1 ▸ c2 p hp, c, json, rfl, h4, c3⟩
    unfold JFrame.firstColumn at h1
    split at h1
    · cases h1
    · rename_i d rest hc
      cases h1
      exact ⟨_, _, rest, hc, h2⟩

/-! ## Non-vacuity -/

namespace Demo

/-- A file whose only edge `X → Y` is written with "To" first. -/
def toFirst : List (String × JVal) := [("samples", .arr [.arr [.obj [("Time", .num 0), ("X", .num 0), ("Y", .num 0)], .obj [("Time", .num 1), ("X", .num 1), ("Y", .num 0)],
    .obj [("Time", .num 2), ("X", .num (-1)), ("Y", .num (-1))]]]),
  ("variables", .arr [.obj [("Name", .str "X"), ("Value", .num 2)], .obj [("Name", .str "Y"), ("Value", .num 2)]]), ("dyn.cims", .obj [])]

def readKeys : JsonKeys := ⟨"samples", "dyn.str", "variables", "Time", "Name", some "dyn.cims"⟩

/-- The generator samples from `X → Y`, the estimators are told `Y → X`. -/
example : ((buildFromFile readKeys (edgeFile readKeys toFirst [(("X", "Y"), true)]) 0).map (fun p => p.struct.map (fun s => s.edges))) = .ok (some [("Y", "X")]) ∧
    (generatorFromFile readKeys (edgeFile readKeys toFirst [(("X", "Y"), true)]) 0).map (fun n => n.parents) = .ok [("X", []), ("Y", ["X"])] := by
  constructor <;> rfl

/-- The file with "From" first: both readings give the same generator. -/
example : samplerFromFile readKeys (edgeFile readKeys toFirst [(("X", "Y"), false)]) 0 = .ok ⟨["X", "Y"], [("X", []), ("Y", ["X"])], []⟩ ∧
    generatorFromFile readKeys (edgeFile readKeys toFirst [(("X", "Y"), false)]) 0 = .ok ⟨["X", "Y"], [("X", []), ("Y", ["X"])], []⟩ := by
  have h : samplerFromFile readKeys (edgeFile readKeys toFirst [(("X", "Y"), false)]) 0 = .ok ⟨["X", "Y"], [("X", []), ("Y", ["X"])], []⟩ := by rfl
  refine ⟨h, generator_of_sampler readKeys _ 0 toFirst [(("X", "Y"), false)] rfl rfl rfl rfl rfl rfl _ h (by simp)⟩

end Demo

end PyCTBN
