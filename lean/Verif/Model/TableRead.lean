import Verif.Model.Json

/-!
# Model of how `TrajectoryGenerator.__init__` reads imported tables: by column names
-/

namespace PyCTBN

/-- Is the cell NaN? -/
def JVal.isNull : JVal → Bool
  | .null => true
  | _ => false

/-- Does the cell equal the string `s`? -/
def JVal.isStr (s : String) : JVal → Bool
  | .str t => decide (t = s)
  | _ => false

/-- `frame[name]`: `KeyError` if there is no such column. -/
def JFrame.column (f : JFrame) (name : String) : Py (List JVal) :=
  match f.cols.find? (fun p => decide (p.1 = name)) with
  | some p => .ok p.2
  | none => .error .keyError

/-- `frame.where(frame["To"] == v).dropna()["From"].tolist()`, trajectory_generator.py lines 41 and 43 and json_exporter.py line 54: `where` blanks the
rows whose "To" is another one, `dropna` removes the rows with a NaN in any column. -/
def JFrame.parentsOf (f : JFrame) (v : Label) : Py (List JVal) := do
  let tos ← f.column "To"
  let fr ← f.column "From"
  return ((List.range f.size).filter (fun i => (tos[i]?).any (JVal.isStr v) && f.cols.all (fun c => !(c.2[i]?).any JVal.isNull))).filterMap (fun i => fr[i]?)

/-- `frame.iloc[:, 0].to_list()`: `IndexError` for a frame without columns, trajectory_generator.py line 36. -/
def JFrame.firstColumn (f : JFrame) : Py (List JVal) :=
  match f.cols with
  | [] => .error .indexError
  | c :: _ => .ok c.2

/-- One variable of `_parents`, trajectory_generator.py lines 39-41.  (Simplification: a parent that is not a string is rejected.) -/
def JFrame.parentEntry (f : JFrame) (v : Label) : Py (Label × List Label) := do
  let ps ← f.parentsOf v
  let ps ← ps.mapM JVal.node
  return (v, ps)

/-- One variable of `_cims`, trajectory_generator.py lines 50-63: the parents are looked up, and the columns "Name" and "Value" of the variables table. -/
def readGenNode (vars : JFrame) (parents : List (Label × List Label)) (p : Label × List (String × JsonCim)) : Py (Label × SetOfCims) := do
  let s ← readNode p.1 p.2
  let _ ← dictGet parents p.1
  let _ ← vars.column "Name"
  let _ ← vars.column "Value"
  return (p.1, s)

/-- `TrajectoryGenerator.__init__` for imported tables, trajectory_generator.py lines 36-63; `AttributeError` when the importer was made without
`cims_label` (line 47).  (Simplification: names that are not strings are rejected.) -/
def generatorFromTables (table vars : JFrame) (cims : Option JVal) : Py SampleNet := do
  let names ← vars.firstColumn
  let names ← names.mapM JVal.label
  let parents ← names.mapM table.parentEntry
  match cims with
  | none => .error .attributeError
  | some c => do
    let json ← c.cimDict
    let cims ← json.mapM (readGenNode vars parents)
    return ⟨names, parents, cims⟩

/-- `TrajectoryGenerator(importer=JsonImporter(...))` after `import_data(indx)` (json_importer.py lines 56-71).  In contrast to `samplerFromFile` the two tables are
the frames themselves, read by column names. -/
def generatorFromFile (k : JsonKeys) (file : JVal) (indx : ℤ) : Py SampleNet := do
  let d ← pyGetZ (readJsonFile file) indx
  let smps ← d.key k.samples
  let smps ← smps.items
  let frames ← smps.mapM (fun s => do (← dataFrame s).toFrame)
  let first ← pyGet frames 0
  let sorter ← jsonSorter k.timeKey first
  let _ ← computeAllDeltas sorter frames
  let sv ← d.key k.structureLabel
  let table ← dataFrame sv
  let vv ← d.key k.variablesLabel
  let vars ← dataFrame vv
  let cims ← optKey d k.cims
  generatorFromTables table vars cims

end PyCTBN
