import Verif.Model.Params

/-!
# Model of `abstract_importer.py`, `json_importer.py`, `sample_importer.py` and `sample_path.py`

A pandas frame is a list of row labels and a list of named columns; a cell is a rational or NaN (`none`).
Simplifications: int32 overflow and floating-point rounding are not modelled; the JSON text parser is not modelled (the
frames are the input); a look-up of a repeated column name yields the first such column (pandas would yield a
sub-frame), so statements are about frames without repeated column names.
-/

namespace PyCTBN

/-- A cell of a frame: a number or NaN. -/
abbrev Cell := Option ℚ

/-- A pandas `DataFrame`: row labels (`index`) and named columns. -/
structure Frame where
  index : List ℤ
  cols : List (String × List Cell)
deriving DecidableEq

namespace Frame

/-- `frame.columns`. -/
def names (f : Frame) : List String := f.cols.map Prod.fst

/-- `frame[name]`: `KeyError` if there is no such column. -/
def col (f : Frame) (name : String) : Py (List Cell) :=
  match f.cols.find? (fun p => decide (p.1 = name)) with
  | some p => .ok p.2
  | none => .error .keyError

/-- `frame[name] = v`: replaces the column in place or appends it. -/
def setCol (f : Frame) (name : String) (v : List Cell) : Frame :=
  if name ∈ f.names then { f with cols := f.cols.map (fun p => if p.1 = name then (name, v) else p) }
  else { f with cols := f.cols ++ [(name, v)] }

/-- `frame[header]`: the columns named in `header`, in that order. -/
def select (f : Frame) (header : List String) : Py Frame := do
  let cs ← header.mapM f.col
  return ⟨f.index, header.zip cs⟩

/-- `frame.iloc[0:0]`: same columns, no rows. -/
def noRows (f : Frame) : Frame := ⟨[], f.cols.map (fun p => (p.1, []))⟩

/-- `frame.drop(frame.tail(1).index)`: drops *every* row whose label is the label of the last row. -/
def dropLastLabel (f : Frame) : Frame :=
  match f.index.getLast? with
  | none => f
  | some l => ⟨f.index.filter (fun x => decide (x ≠ l)),
      f.cols.map (fun p => (p.1, ((f.index.zip p.2).filter (fun q => decide (q.1 ≠ l))).map Prod.snd))⟩

/-- `pd.concat(frames)`: `ValueError` on an empty list; rows in order, union of the columns, NaN where a frame lacks one. -/
def concat : List Frame → Py Frame
  | [] => .error .valueError
  | f :: fs =>
    let header := fs.foldl (fun acc g => acc ++ g.names.filter (fun n => decide (n ∉ acc))) f.names
    .ok ⟨(f :: fs).flatMap (·.index), header.map (fun n => (n, (f :: fs).flatMap (fun g =>
      match g.col n with
      | .ok c => c
      | .error _ => List.replicate g.index.length none)))⟩

end Frame

/-! ## Column operations -/

/-- `series.shift(-1)`. -/
def shiftUp : List Cell → List Cell
  | [] => []
  | _ :: l => l ++ [none]

/-- Difference of two cells (NaN if either is). -/
def cellSub (a b : Cell) : Cell := a.bind (fun x => b.map (fun y => x - y))

/-- `series.diff()`: NaN first, then each value minus its predecessor. -/
def seriesDiff : List Cell → List Cell
  | [] => []
  | a :: l => none :: List.zipWith cellSub l (a :: l)

/-- Conversion of a float to an integer: truncation towards zero. -/
def truncInt (q : ℚ) : ℤ := if 0 ≤ q then q.floor else -(-q).floor

/-- `series.fillna(0).astype('int32')`. -/
def fillInt (l : List Cell) : List Cell := l.map (fun c => some ((truncInt (c.getD 0) : ℤ) : ℚ))

/-! ## `AbstractImporter` -/

/-- `compute_row_delta_sigle_samples_frame`, abstract_importer.py lines 82-89. The deep copy of line 82 is implicit: the
argument is never changed. -/
def computeRowDelta (frame : Frame) (header shifted : List String) : Py Frame := do
  let frame1 ← match frame.cols with
    | [] => Except.error PyErr.indexError
    | (n, c) :: rest => Except.ok (⟨frame.index, (n, shiftUp (seriesDiff c)) :: rest⟩ : Frame)
  let cs ← header.mapM frame1.col
  let shiftedCols := shifted.zip (cs.map (fun c => fillInt (shiftUp c)))
  let frame2 := shiftedCols.foldl (fun f p => f.setCol p.1 p.2) frame1
  return frame2.dropLastLabel

/-- `compute_row_delta_in_all_samples_frames`, abstract_importer.py lines 107-118: the new `_concatenated_samples`.
An uninitialised (`None`) or empty `_sorter` is `[]`. -/
def computeAllDeltas (sorter : List String) (frames : List Frame) : Py Frame := do
  if sorter = [] then .error .runtimeError else
  let shifted := sorter.map (· ++ "S")
  let procs ← frames.mapM (fun f => computeRowDelta f sorter shifted)
  let conc ← Frame.concat procs
  conc.select ("Time" :: sorter ++ shifted)

/-- `astype(int)` of a cell. (A NaN, which numpy turns into a platform-dependent integer, is an error in the model.) -/
def cellInt : Cell → Py ℤ
  | some q => .ok (truncInt q)
  | none => .error .valueError

/-- A time cell. (A NaN time, which numpy would keep, is an error in the model.) -/
def cellTime : Cell → Py ℚ
  | some q => .ok q
  | none => .error .valueError

/-- `build_list_of_samples_array`, abstract_importer.py lines 130-133: first column as times, the others, row by row, as
integers. -/
def buildListOfSamplesArray (f : Frame) : Py (List ℚ × List (List ℤ)) :=
  match f.cols with
  | [] => .error .indexError
  | (_, tc) :: rest => do
    let times ← tc.mapM cellTime
    let rows ← (List.range f.index.length).mapM (fun k : Nat =>
      rest.mapM (fun p => do cellInt (← pyGet p.2 k)))
    return (times, rows)

/-! ## The importers -/

/-- `variables` table: row labels, variable labels (first column), cardinalities (second column). -/
structure VarTable where
  index : List Nat
  labels : List Label
  cards : List Nat
deriving DecidableEq

/-- Members of an importer that the rest of the package reads; abstract_importer.py lines 44-49. `concatenated = none` is
the initial empty Python list, `sorter = none` is `None`. -/
structure Importer where
  concatenated : Option Frame
  sorter : Option (List Label)
  vars : Option VarTable
  edges : Option (List Edge)
deriving DecidableEq

/-- `JsonImporter.build_sorter`, json_importer.py lines 153-155. -/
def jsonSorter (timeKey : String) (frame : Frame) : Py (List Label) := pyRemove frame.names timeKey

/-- `JsonImporter.import_data`, json_importer.py lines 62-71 (one dataset, already parsed into frames and tables). -/
def jsonImportData (timeKey : String) (frames : List Frame) (vars : VarTable) (edges : List Edge) : Py Importer := do
  let first ← pyGet frames 0
  let sorter ← jsonSorter timeKey first
  let conc ← computeAllDeltas sorter frames
  return ⟨some conc, some sorter, some vars, some edges⟩

/-- `SampleImporter.import_data`, sample_importer.py lines 45-62: the sorter is the given header or the header of the first
frame without its first column (`del columns_header[0]`, `IndexError` when there is none). -/
def sampleImportData (frames : List Frame) (vars : Option VarTable) (edges : Option (List Edge))
    (headerColumn : Option (List Label)) : Py Importer := do
  let sorter ← match headerColumn with
    | some h => Except.ok h
    | none => do
      let first ← pyGet frames 0
      match first.names with
      | [] => Except.error PyErr.indexError
      | _ :: rest => Except.ok rest
  let conc ← computeAllDeltas sorter frames
  return ⟨some conc, some sorter, vars, edges⟩

/-! ## `SamplePath` -/

/-- `SamplePath`, sample_path.py lines 28-44. -/
structure SamplePath where
  importer : Importer
  trajectories : Option Trajectory
  struct : Option Structure
  totalVariables : Option Nat
deriving DecidableEq

namespace SamplePath

/-- `SamplePath.__init__`, sample_path.py lines 31-44. -/
def new (imp : Importer) : Py SamplePath :=
  match imp.vars with
  | none => .error .runtimeError
  | some v =>
    if v.labels = [] then .error .runtimeError
    else match imp.concatenated with
      | some f => if f.index = [] ∨ f.cols = [] then .error .runtimeError else .ok ⟨imp, none, none, none⟩
      | none => .ok ⟨imp, none, none, none⟩

/-- `build_trajectories`, sample_path.py lines 50-53. The initial empty list has no `to_numpy` (`AttributeError`);
`len(None)` is a `TypeError`. -/
def buildTrajectories (p : SamplePath) : Py SamplePath := do
  match p.importer.concatenated with
  | none => .error .attributeError
  | some f =>
    let tr ← buildListOfSamplesArray f
    match p.importer.sorter with
    | none => .error .typeError
    | some s => .ok { p with
        trajectories := some ⟨tr.1, tr.2, s.length + 1⟩
        importer := { p.importer with concatenated := some f.noRows } }

/-- `build_structure`, sample_path.py lines 59-71. -/
def buildStructure (p : SamplePath) : Py SamplePath :=
  match p.importer.vars with
  | none => .error .attributeError
  | some v =>
    if p.importer.sorter ≠ some v.labels then .error .runtimeError
    else .ok { p with
      totalVariables := some v.labels.length
      struct := some ⟨v.labels, v.index, v.cards, p.importer.edges.getD [], v.labels.length⟩ }

/-- `has_prior_net_structure`, sample_path.py lines 88-90. -/
def hasPriorNetStructure (p : SamplePath) : Py Bool :=
  match p.struct with
  | none => .error .attributeError
  | some s => .ok (decide (s.edges ≠ []))

end SamplePath
end PyCTBN
