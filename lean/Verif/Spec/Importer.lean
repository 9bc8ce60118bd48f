import Verif.Model.Importer

/-!
# Specification vocabulary for preprocessing: raw trajectories and their consecutive sample pairs
-/

namespace PyCTBN.Spec

/-- A raw trajectory: samples in order, each a time stamp and the states of the variables. -/
abbrev RawTraj := List (ℚ × List ℤ)

/-- Consecutive samples of one trajectory. -/
def consecutive (raw : RawTraj) : List ((ℚ × List ℤ) × (ℚ × List ℤ)) := raw.zip raw.tail

/-- Durations between consecutive samples, trajectory by trajectory. -/
def durations (raws : List RawTraj) : List ℚ := raws.flatMap (fun raw => (consecutive raw).map (fun p => p.2.1 - p.1.1))

/-- "This state, next state" rows, trajectory by trajectory. -/
def stepRows (raws : List RawTraj) : List (List ℤ) :=
  raws.flatMap (fun raw => (consecutive raw).map (fun p => p.1.2 ++ p.2.2))

/-- The frame `f` holds the trajectory `raw` over the variables `vars`: one row per sample, the first column is named
`tkey` and holds the time stamps, and each variable has a column with its states (further columns and any column order
are allowed). -/
structure Holds (tkey : String) (vars : List Label) (f : Frame) (raw : RawTraj) : Prop where
  rows : f.index.length = raw.length
  width : ∀ smp ∈ raw, smp.2.length = vars.length
  time : f.cols.head? = some (tkey, raw.map (fun smp => some smp.1))
  states : ∀ (i : Nat) (v : Label), vars[i]? = some v →
    f.col v = .ok (raw.map (fun smp => smp.2[i]?.map (fun z : ℤ => (z : ℚ))))
  namesNodup : f.names.Nodup

/-- The label of the last row is not the label of another row. -/
def LastLabelUnique (f : Frame) : Prop := ∀ (pre : List ℤ) (l : ℤ), f.index = pre ++ [l] → l ∉ pre

/-- No variable is called like another one followed by "S". -/
def NoSuffixClash (vars : List Label) : Prop := ∀ v ∈ vars, v ++ "S" ∉ vars

end PyCTBN.Spec
