import Verif.Lemmas.CtpcPar
import Verif.Lemmas.NoUB
import Verif.Lemmas.CtpcEval

/-! Small concrete estimators, used to show that the hypotheses of the theorems on constraint-based search are met. -/

namespace PyCTBN
namespace Demo

/-- Three binary variables: `A` follows the negation of `B`, `B` follows `A`, `C` moves now and then. -/
def data : Trajectory :=
  { times := [1, 2, 3, 1, 2, 3, 1, 2, 3, 1, 2]
    rows := [[0, 0, 0, 1, 0, 0],
      [1, 0, 0, 1, 1, 0],
      [1, 1, 0, 0, 1, 0],
      [0, 1, 0, 0, 1, 1],
      [0, 1, 1, 0, 0, 1],
      [0, 0, 1, 1, 0, 1],
      [1, 0, 1, 1, 1, 1],
      [1, 1, 1, 0, 1, 1],
      [0, 1, 1, 0, 1, 0],
      [0, 1, 0, 0, 0, 0],
      [0, 0, 0, -1, -1, -1]]
    origCols := 4 }

def struct3 : Structure := ⟨["A", "B", "C"], [0, 1, 2], [2, 2, 2], [], 3⟩

/-- Accept when the same transitions occur. -/
def env : CBEnv := ⟨struct3, 3, data, fun _ a b _ => .ok (if a.trans.map (List.map (fun n => decide (n = 0))) =
  b.trans.map (List.map (fun n => decide (n = 0))) then .accept else .reject)⟩

def allTrue : List (List Bool) := List.replicate 3 (List.replicate 3 true)

/-- Two binary variables and one with three states: estimating `A` given `C` is impossible (C18). -/
def dataMixed : Trajectory :=
  { times := [1, 1, 1, 1, 1, 1, 1, 1]
    rows := [[0, 0, 0, 0, 0, 1], [0, 0, 1, 0, 0, 2], [0, 0, 2, 0, 1, 2], [0, 1, 2, 0, 0, 2], [0, 0, 2, 1, 0, 2],
      [1, 0, 2, 1, 1, 2], [1, 1, 2, 1, 0, 2], [1, 0, 2, -1, -1, -1]]
    origCols := 4 }

def envMixed : CBEnv := ⟨⟨["A", "B", "C"], [0, 1, 2], [2, 2, 3], [], 3⟩, 3, dataMixed, env.twoCim⟩

/-- The matrix built from the known edge `C → B`. -/
def knownCB : List (List Bool) := [[true, true, true], [true, true, true], [true, false, true]]

/-- Total number of transitions. -/
def diagSum (m : List (List Nat)) : Nat := (m.zipIdx.map (fun (r, i) => r[i]?.getD 0)).sum

/-- Next-state proportions differ by at most a quarter. -/
def closeTo (a b : List (List Nat)) : Bool :=
  (a.zip b).zipIdx.all (fun ((r1, r2), i) =>
    let s1 := r1[i]?.getD 0
    let s2 := r2[i]?.getD 0
    (r1.zip r2).all (fun (x, y) => decide (4 * (x * s2 - y * s1) ≤ s1 * s2 ∧ 4 * (y * s1 - x * s2) ≤ s1 * s2)))

/-- Four three-valued variables: `X` is driven by `R`, which `P` mirrors; `Q` never takes its value 0. -/
def dataRerun : Trajectory :=
  { times := [1, 1, 1, 1]
    rows := [[0, 1, 0, 0, 2, 2, 2, 1], [2, 2, 2, 1, 1, 2, 1, 0], [1, 2, 1, 0, 2, 2, 2, 2], [2, 2, 2, 2, 0, 1, 0, 0]]
    origCols := 5 }

/-- A test with the shape of the library's: a data-size rule for children of more than two states, then a comparison. -/
def envRerun : CBEnv := ⟨⟨["P", "Q", "R", "X"], [0, 1, 2, 3], [3, 3, 3, 3], [], 4⟩, 4, dataRerun, fun c a b _ =>
  .ok (if 2 < c ∧ diagSum a.trans < 1 then .rejectMark else if closeTo a.trans b.trans then .accept else .reject)⟩

theorem struct3_wf : Spec.WFStructure struct3 := ⟨by decide, rfl, rfl⟩

example : (env.optimize ⟨[], allTrue⟩ "A").1 = .ok [("B", "A")] := by rw [CBEnv.optimize_eq_F]; decide +kernel

end Demo
end PyCTBN
