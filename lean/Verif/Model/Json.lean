import Verif.Model.Importer
import Verif.Model.Export

/-!
# Model of JSON files: `json_importer.py` (reading) and `JsonExporter.out_file` (writing)

A file is the value `json.load` returns.  The text (`json.dump` and `json.load` are inverse on the values written here) and the
file system are not modelled.  Repeated keys in an object, of which `json.load` keeps the last value, do not occur.
-/

namespace PyCTBN

/-- What `json.load` returns. -/
inductive JVal where
  | null
  | bool (b : Bool)
  | num (q : ℚ)
  | str (s : String)
  | arr (l : List JVal)
  | obj (fields : List (String × JVal))

/-! ## Reading -/

/-- `read_json_file`, json_importer.py lines 103-115: a file that is not a list is a list of one data set. -/
def readJsonFile : JVal → List JVal
  | .arr l => l
  | v => [v]

/-- `d[key]` of a loaded value: `KeyError` if a dictionary lacks the key, `TypeError` for anything but a dictionary. -/
def JVal.key (v : JVal) (k : String) : Py JVal :=
  match v with
  | .obj fields => match fields.find? (fun p => decide (p.1 = k)) with
    | some p => .ok p.2
    | none => .error .keyError
  | _ => .error .typeError

/-- A record. (Simplification: `pd.DataFrame` also accepts other rows; they are rejected here with `ValueError`.) -/
def JVal.record : JVal → Py (List (String × JVal))
  | .obj fields => .ok fields
  | _ => .error .valueError

/-- A list of values; iterating over a number is a `TypeError`.  (Simplification: dictionaries and strings, which Python would
iterate over too, are rejected as well.) -/
def JVal.items : JVal → Py (List JVal)
  | .arr l => .ok l
  | _ => .error .typeError

/-- A frame of arbitrary values: number of rows (labelled from 0) and named columns. -/
structure JFrame where
  size : Nat
  cols : List (String × List JVal)

/-- The value of a record in a column; NaN (`null`) when it lacks it. -/
def recordCell (r : List (String × JVal)) (n : String) : JVal :=
  match r.find? (fun p => decide (p.1 = n)) with
  | some p => p.2
  | none => .null

/-- The columns of `pd.DataFrame(records)`: the keys in order of first appearance. -/
def recordHeader (rs : List (List (String × JVal))) : List String :=
  rs.foldl (fun acc r => acc ++ (r.map Prod.fst).filter (fun n => decide (n ∉ acc))) []

/-- `pd.DataFrame(records)` for a list of dictionaries. -/
def recordsFrame (rs : List (List (String × JVal))) : JFrame :=
  ⟨rs.length, (recordHeader rs).map (fun n => (n, rs.map (fun r => recordCell r n)))⟩

/-- `pd.DataFrame(value)`. -/
def dataFrame (v : JVal) : Py JFrame := do
  let l ← v.items
  let rs ← l.mapM JVal.record
  return recordsFrame rs

/-- A cell of a frame of numbers.  (Simplification: booleans and strings in a trajectory are rejected with `TypeError`; pandas
would compute with the former and reject most of the latter later.) -/
def JVal.cell : JVal → Py Cell
  | .num q => .ok (some q)
  | .null => .ok none
  | _ => .error .typeError

/-- A trajectory frame. -/
def JFrame.toFrame (f : JFrame) : Py Frame := do
  let cols ← f.cols.mapM (fun p => do
    let c ← p.2.mapM JVal.cell
    return (p.1, c))
  return ⟨(List.range f.size).map (fun n : Nat => (n : ℤ)), cols⟩

/-- A label in the variables table.  A label that is not a string equals no column name: the `RuntimeError` raised by
`SamplePath.build_structure` (sample_path.py lines 59-60) is anticipated here. -/
def JVal.label : JVal → Py Label
  | .str s => .ok s
  | _ => .error .runtimeError

/-- A cardinality.  (Simplification: anything but a natural number is rejected with `ValueError`.) -/
def JVal.nat : JVal → Py Nat
  | .num q => if q.den = 1 ∧ 0 ≤ q then .ok q.num.toNat else .error .valueError
  | _ => .error .valueError

/-- The variables table as `SamplePath.build_structure` reads it, sample_path.py lines 63-65: row labels, first column,
second column (`iloc`, an `IndexError` when missing); a frame without columns is empty. -/
def JFrame.toVars (f : JFrame) : Py VarTable :=
  match f.cols with
  | [] => .ok ⟨[], [], []⟩
  | [_] => .error .indexError
  | a :: b :: _ => do
    let labels ← a.2.mapM JVal.label
    let cards ← b.2.mapM JVal.nat
    return ⟨List.range f.size, labels, cards⟩

/-- The end of an edge. (Simplification: other values than strings are rejected with `ValueError`.) -/
def JVal.node : JVal → Py Label
  | .str s => .ok s
  | _ => .error .valueError

/-- The edge table as `SamplePath.build_structure` reads it, sample_path.py lines 66-69: the rows as tuples; none when the frame is empty.
(Simplification: a table that has not exactly two columns, whose rows would not be pairs, is rejected with `ValueError`.) -/
def JFrame.toEdges (f : JFrame) : Py (List Edge) :=
  match f.cols with
  | [] => .ok []
  | [a, b] => do
    let xs ← a.2.mapM JVal.node
    let ys ← b.2.mapM JVal.node
    return xs.zip ys
  | _ => .error .valueError

/-- The keys given to the constructor of `JsonImporter`, json_importer.py lines 36-54. `variables_key` is stored and never used. -/
structure JsonKeys where
  samples : String
  structureLabel : String
  variablesLabel : String
  timeKey : String
  variablesKey : String
  cims : Option String
deriving DecidableEq

/-- Lines 70-71: the CIM dictionary, if asked for. -/
def optKey (d : JVal) : Option String → Py (Option JVal)
  | none => .ok none
  | some c => do
    let v ← d.key c
    return some v

/-- `raw_data[indx]` for any integer (json_importer.py lines 71, 130, 146, 180): a negative index counts from the end; `IndexError` outside
the list. -/
def pyGetZ {α : Type _} (l : List α) (i : ℤ) : Py α :=
  if 0 ≤ i then pyGet l i.toNat
  else if 0 ≤ i + l.length then pyGet l (i + l.length).toNat
  else .error .indexError

/-- `import_data(indx)`, json_importer.py lines 56-71 with the methods it calls: the members of the importer and the raw CIM
dictionary (`None` without `cims_label`).  (Simplification: the tables, which are converted by `SamplePath.build_structure` only,
are converted here.) -/
def jsonImportFile (k : JsonKeys) (file : JVal) (indx : ℤ) : Py (Importer × Option JVal) := do
  let raw := readJsonFile file
  let d ← pyGetZ raw indx
  let smps ← d.key k.samples
  let smps ← smps.items
  let frames ← smps.mapM (fun s => do (← dataFrame s).toFrame)
  let first ← pyGet frames 0
  let sorter ← jsonSorter k.timeKey first
  let conc ← computeAllDeltas sorter frames
  let sv ← d.key k.structureLabel
  let edges ← (← dataFrame sv).toEdges
  let vv ← d.key k.variablesLabel
  let vars ← (← dataFrame vv).toVars
  let cims ← optKey d k.cims
  return (⟨some conc, some sorter, some vars, some edges⟩, cims)

/-- A number. (Simplification: anything else in a CIM is rejected with `ValueError`.) -/
def JVal.number : JVal → Py ℚ
  | .num q => .ok q
  | _ => .error .valueError

/-- A row of a CIM: a dictionary of numbers. -/
def numRow (r : List (String × JVal)) : Py (List (String × ℚ)) := r.mapM (fun p => do
  let q ← p.2.number
  return (p.1, q))

/-- The rows of a CIM: a list of dictionaries of numbers. -/
def JVal.cimRows (v : JVal) : Py JsonCim := do
  let l ← v.items
  let rs ← l.mapM JVal.record
  rs.mapM numRow

/-- `pd.DataFrame(rows).to_numpy()`, json_importer.py line 184. (Simplification: rows that lack a column are rejected with
`ValueError`.) -/
def JVal.toCim (v : JVal) : Py (List (List ℚ)) := do
  let rs ← v.cimRows
  readCim rs

/-- `import_sampled_cims`, json_importer.py lines 166-185: for every variable the matrices, in the order of the file. -/
def importSampledCims (file : JVal) (indx : ℤ) (cimsKey : String) : Py (List (Label × List (List (List ℚ)))) := do
  let d ← pyGetZ (readJsonFile file) indx
  let cv ← d.key cimsKey
  let vars ← cv.record
  vars.mapM (fun p => do
    let combs ← p.2.record
    let ms ← combs.mapM (fun c => c.2.toCim)
    return (p.1, ms))

/-! ## Writing -/

/-- A CIM dictionary as a JSON value. -/
def cimJson (m : JsonCim) : JVal := .arr (m.map (fun r => .obj (r.map (fun p => (p.1, .num p.2)))))

/-- The CIM dictionaries as a JSON value. -/
def cimsJson (d : List (Label × List (String × JsonCim))) : JVal :=
  .obj (d.map (fun p => (p.1, .obj (p.2.map (fun q => (q.1, cimJson q.2))))))

/-- A number as `to_json` writes it: `to_json` rounds to 10 decimals, here an unspecified function `enc`; NaN is `null`. -/
def cellJson (enc : ℚ → ℚ) : Cell → JVal
  | some q => .num (enc q)
  | none => .null

/-- `json.loads(frame.to_json(orient="records"))`, json_exporter.py line 40: one dictionary per row. -/
def frameJson (enc : ℚ → ℚ) (f : Frame) : JVal :=
  .arr ((List.range f.index.length).map (fun k : Nat => .obj (f.cols.map (fun p => (p.1, cellJson enc ((p.2[k]?).getD none))))))

/-- The variables table, with columns "Name" and "Value" (network_generator.py line 130), json_exporter.py line 38. -/
def varsJson (labels : List Label) (cards : List Nat) : JVal :=
  .arr (List.zipWith (fun (l : Label) (c : Nat) => .obj [("Name", .str l), ("Value", .num (c : ℚ))]) labels cards)

/-- The edge table, with columns "From" and "To" (network_generator.py line 126), json_exporter.py line 37. -/
def edgesJson (table : List Edge) : JVal := .arr (table.map (fun e => .obj [("From", .str e.1), ("To", .str e.2)]))

/-- A `JsonExporter`, json_exporter.py lines 21-25. -/
structure JsonExporter where
  labels : List Label
  cards : List Nat
  table : List Edge
  cims : List (Label × SetOfCims)
  trajectories : List Frame

namespace JsonExporter

/-- The constructor, json_exporter.py lines 21-25. -/
def new (labels : List Label) (cards : List Nat) (table : List Edge) (cims : List (Label × SetOfCims)) : JsonExporter :=
  ⟨labels, cards, table, cims, []⟩

/-- `add_trajectory`, abstract_exporter.py lines 26-33. -/
def addTrajectory (x : JsonExporter) (f : Frame) : JsonExporter := { x with trajectories := x.trajectories ++ [f] }

/-- `out_file`, json_exporter.py lines 28-45: the value written. -/
def outFile (enc : ℚ → ℚ) (x : JsonExporter) : Py JVal := do
  let cims ← cimsToJson x.labels x.table x.cims
  return .arr [.obj [("dyn.str", edgesJson x.table), ("variables", varsJson x.labels x.cards), ("dyn.cims", cimsJson cims),
    ("samples", .arr (x.trajectories.map (frameJson enc)))]]

end JsonExporter

/-- The keys of the files written by `out_file`. -/
def exportKeys (cims : Option String) : JsonKeys := ⟨"samples", "dyn.str", "variables", "Time", "Name", cims⟩

/-- The CIM dictionary of one variable in a loaded value. -/
def JVal.combDict (v : JVal) : Py (List (String × JsonCim)) := do
  let combs ← v.record
  combs.mapM (fun c => do
    let rs ← c.2.cimRows
    return (c.1, rs))

/-- The CIM dictionaries of a loaded value, as `TrajectoryGenerator.__init__` reads them (trajectory_generator.py lines 46-54). -/
def JVal.cimDict (v : JVal) : Py (List (Label × List (String × JsonCim))) := do
  let vars ← v.record
  vars.mapM (fun p => do
    let ms ← p.2.combDict
    return (p.1, ms))

/-- The calls a user makes: `JsonImporter(...)`, `import_data(indx)` (json_importer.py lines 36-71), `SamplePath(importer)`,
`build_trajectories()`, `build_structure()` (sample_path.py lines 28-74). -/
def buildFromFile (k : JsonKeys) (file : JVal) (indx : ℤ) : Py SamplePath := do
  let imp ← jsonImportFile k file indx
  let p ← SamplePath.new imp.1
  let p ← p.buildTrajectories
  p.buildStructure

/-- `TrajectoryGenerator(importer=JsonImporter(...))` after `import_data(indx)`, trajectory_generator.py lines 36-63; `AttributeError` when
the importer was made without `cims_label` (line 47).  (Simplification: the edge table is read by position; the code reads the columns "From"
and "To", in the written files the first and the second one.) -/
def samplerFromFile (k : JsonKeys) (file : JVal) (indx : ℤ) : Py SampleNet := do
  let imp ← jsonImportFile k file indx
  match imp.1.vars, imp.1.edges, imp.2 with
  | some vt, some es, some c => do
    let json ← c.cimDict
    SampleNet.ofImporter vt.labels es json
  | _, _, _ => .error .attributeError

end PyCTBN
