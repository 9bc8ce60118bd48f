import Verif.Model.TrajGen

/-!
# Model of `PyCTBN/PyCTBN/utility/json_exporter.py` (`cims_to_json`) and of the importer branch of `TrajectoryGenerator.__init__`

The JSON text itself (`json.dump`, `json.load`: an identity on the dictionaries, lists, strings and floats written here) is not modelled.
-/

namespace PyCTBN

/-- `d[k] = v` on a dictionary in insertion order: replaces the value in place or appends. -/
def dictSet {β : Type _} (d : List (String × β)) (k : String) (v : β) : List (String × β) :=
  if k ∈ d.map Prod.fst then d.map (fun p => if p.1 = k then (k, v) else p) else d ++ [(k, v)]

/-- A CIM as written to the file: a list of rows, each a dictionary from column number to value, json_exporter.py line 73. -/
abbrev JsonCim := List (List (String × ℚ))

/-- The dictionary of a row, json_exporter.py line 73. -/
def rowDict (row : List ℚ) : List (String × ℚ) := row.zipIdx.map (fun p => (toString p.2, p.1))

/-- The loop of json_exporter.py lines 58-61 from position `k`: `parents[k] + "=" + str(val)`, separated by commas.
`IndexError` when there are more values than parents. -/
def combKeyFrom : List Label → List Nat → Py String
  | _, [] => .ok ""
  | [], _ :: _ => .error .indexError
  | p :: ps, x :: xs => do
    let rest ← combKeyFrom ps xs
    return p ++ "=" ++ toString x ++ (if xs = [] then "" else ",") ++ rest

/-- The key of an assignment, json_exporter.py lines 56-63. -/
def combKey (l : Label) (parents : List Label) (comb : List Nat) : Py String :=
  if parents.length ≠ 0 then combKeyFrom parents comb else .ok l

/-- The CIM exported for an assignment, json_exporter.py lines 65-71. -/
def exportCim (s : SetOfCims) (parents : List Label) (comb : List Nat) : Py (List (List ℚ)) := do
  let sel ← s.filterCims (parents.map (fun _ => true)) comb
  let c ← (if parents.length = 1 then do
      let x ← pyGet comb 0
      pyGet sel x
    else pyGet sel 0)
  return c.cim

/-- The dictionary of one variable, json_exporter.py lines 53-73. -/
def exportNode (l : Label) (parents : List Label) (s : SetOfCims) : Py (List (String × JsonCim)) :=
  s.pCombs.foldlM (fun d comb => do
    let key ← combKey l parents comb
    let cim ← exportCim s parents comb
    return dictSet d key (cim.map rowDict)) []

/-- `cims_to_json`, json_exporter.py lines 49-75, for the variables `labels`, the edge table `table` and the CIMs `cims`. -/
def cimsToJson (labels : List Label) (table : List Edge) (cims : List (Label × SetOfCims)) :
    Py (List (Label × List (String × JsonCim))) :=
  labels.foldlM (fun d l => do
    let s ← dictGet cims l
    let node ← exportNode l (tableParents table l) s
    return dictSet d l node) []

/-- `re.findall(r"=(\d)", key)` and the conversion to numbers, trajectory_generator.py line 53.
(Simplification: only the ASCII digits are digits.) -/
def findDigits : List Char → List Nat
  | [] => []
  | [_] => []
  | a :: b :: rest => if a = '=' ∧ b.isDigit then (b.toNat - 48) :: findDigits rest else findDigits (b :: rest)

/-- The value of a row in a column of the frame of trajectory_generator.py line 54. -/
def dictCell (r : List (String × ℚ)) (n : String) : Py ℚ :=
  match r.find? (fun p => decide (p.1 = n)) with
  | some p => .ok p.2
  | none => .error .valueError

/-- `pd.DataFrame(rows).to_numpy()` of a list of dictionaries, trajectory_generator.py line 54: the columns are the keys in order of first
appearance.  (Simplification: rows that lack a column, which pandas fills with NaN, are rejected with `ValueError`.) -/
def readCim (j : JsonCim) : Py (List (List ℚ)) :=
  let header := j.foldl (fun acc r => acc ++ (r.map Prod.fst).filter (fun n => decide (n ∉ acc))) []
  j.mapM (fun r => header.mapM (dictCell r))

/-- The set of CIMs read for one variable, trajectory_generator.py lines 50-63.  (The cardinalities stored there are pandas series
nobody reads; here they are empty.) -/
def readNode (v : Label) (d : List (String × JsonCim)) : Py SetOfCims := do
  let cims ← d.mapM (fun p => readCim p.2)
  return ⟨v, [], 0, d.map (fun p => findDigits p.1.toList), false, cims.map (fun m => ⟨[], [], m⟩)⟩

/-- `TrajectoryGenerator(importer=...)`, trajectory_generator.py lines 36-63, for the imported variable names, edge table and CIM
dictionary.  An imported empty edge list is a frame without columns: `KeyError` (line 41). -/
def SampleNet.ofImporter (labels : List Label) (table : List Edge) (json : List (Label × List (String × JsonCim))) : Py SampleNet := do
  if table = [] ∧ labels ≠ [] then .error .keyError
  else
    let cims ← json.mapM (fun p => do
      let s ← readNode p.1 p.2
      return (p.1, s))
    return ⟨labels, labels.map (fun v => (v, tableParents table v)), cims⟩

end PyCTBN
