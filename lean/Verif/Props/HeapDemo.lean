import Verif.Props.HeapShare

/-!
# Concrete programs for C151 – C155
-/

namespace PyCTBN
open Spec

/-- Nothing yet. -/
def exHeap0 : Heap := ⟨[], [], [], []⟩

/-- Two structures with lists of their own, and two graphs over the first. -/
def exHeap : Heap := exHeap0.run
  [.newLabels ["X", "Y", "Z"], .newEdges [("X", "Y"), ("Y", "Z")], .newStruct 0 [0, 1, 2] [2, 3, 4] 0 3,
   .newLabels ["X", "Y", "Z"], .newEdges [], .newStruct 1 [0, 1, 2] [2, 3, 4] 1 3,
   .newGraph 0, .newGraph 0]

example : exHeap.structView 0 = some ⟨["X", "Y", "Z"], [0, 1, 2], [2, 3, 4], [("X", "Y"), ("Y", "Z")], 3⟩ ∧
    exHeap.structView 1 = some ⟨["X", "Y", "Z"], [0, 1, 2], [2, 3, 4], [], 3⟩ := by decide

theorem exHeap_ok : HeapOk exHeap := ⟨by decide, by decide⟩

theorem exHeap_structs : exHeap.structs = [⟨0, [0, 1, 2], [2, 3, 4], 0, 3⟩, ⟨1, [0, 1, 2], [2, 3, 4], 1, 3⟩] := by decide

theorem exHeap_own : OwnLists exHeap 0 := by
  intro o ho t o' ht ho'
  rw [exHeap_structs] at ho ho'
  simp only [List.getElem?_cons_zero, Option.some.injEq] at ho
  match t, ht, ho' with
  | 1, _, h => simp only [List.getElem?_cons_succ, List.getElem?_cons_zero, Option.some.injEq] at h; subst ho h; decide
  | (t + 2), _, h => simp at h

/-- A program that edits the first structure, directly and through a graph, and does other things in between. -/
def exProg : List Cmd :=
  [.onStruct 0 (.addEdge ("Z", "X")), .onStruct 1 (.removeNode "X"), .fastInit 0 "Y", .removeNode 0 "X",
   .editLabels 1 [], .newGraph 1, .onStruct 0 .cleanEdges, .onStruct 0 (.removeNode "Q")]

/-- The hypotheses of C151 hold for it. -/
theorem exProg_untampered : Untampered 0 exHeap exProg := by
  refine ⟨not_false, not_false, not_false, not_false, ?_, not_false, not_false, not_false, trivial⟩
  rintro ⟨o, ho, hl⟩
  have hs : ((((exHeap.step (.onStruct 0 (.addEdge ("Z", "X")))).1.step (.onStruct 1 (.removeNode "X"))).1.step
      (.fastInit 0 "Y")).1.step (.removeNode 0 "X")).1.structs[0]? = some ⟨0, [1, 2], [3, 4], 3, 3⟩ := by decide +kernel
  rw [hs] at ho
  cases ho
  cases hl

example : editsOf 0 exHeap exProg =
    [.addEdge ("Z", "X"), .removeNode "X", .cleanEdges, .removeNode "Q"] := by decide +kernel

example : (exHeap.run exProg).structView 0 = some ⟨["Y", "Z"], [1, 2], [3, 4], [], 3⟩ := by
  rw [unshared_structure_is_a_value exHeap 0 ⟨["X", "Y", "Z"], [0, 1, 2], [2, 3, 4], [("X", "Y"), ("Y", "Z")], 3⟩ exProg exHeap_ok exHeap_own (by decide) ⟨by decide, rfl, rfl⟩ exProg_untampered]
  decide +kernel

/-- C152: the second graph is used for reading, the first edits. -/
def exGraphProg : List Cmd := [.fastInit 1 "Z", .fastInit 0 "Y", .addEdges 0 [("Z", "Y")], .onStruct 1 .cleanEdges, .removeNode 0 "X"]

example : EditedOnlyThrough 0 0 exHeap exGraphProg ∧ exHeap.graphView 0 = some (NetworkGraph.new
    ⟨["X", "Y", "Z"], [0, 1, 2], [2, 3, 4], [("X", "Y"), ("Y", "Z")], 3⟩) := by
  refine ⟨⟨not_false, ?_, not_false, ?_, not_false, ?_, not_false, ?_, not_false, ?_, trivial⟩, by decide⟩ <;>
    first | (intro h; exact absurd rfl h) | (intro _; rfl)

example : ((exGraphProg.filter (callsGraph 0)).foldl graphCall (NetworkGraph.new
    ⟨["X", "Y", "Z"], [0, 1, 2], [2, 3, 4], [("X", "Y"), ("Y", "Z")], 3⟩)).edges = [("Y", "Z"), ("Z", "Y")] := by decide +kernel

/-- C153: two structures from one list of labels; after removing `X` from the first, the second answers 2 for `Y`, which has 3
states. -/
def exShared : Heap := exHeap0.run
  [.newLabels ["X", "Y", "Z"], .newEdges [], .newEdges [], .newStruct 0 [0, 1, 2] [2, 3, 4] 0 3, .newStruct 0 [0, 1, 2] [2, 3, 4] 1 3]

theorem shared_labels_refuted : ∃ w w', exShared.structView 1 = some w ∧
    (exShared.step (.onStruct 0 (.removeNode "X"))).1.structView 1 = some w' ∧
    w.getStatesNumber "Y" = .ok 3 ∧ w'.getStatesNumber "Y" = .ok 2 ∧ w'.getStatesNumber "X" = .error .valueError :=
  ⟨⟨["X", "Y", "Z"], [0, 1, 2], [2, 3, 4], [], 3⟩, ⟨["Y", "Z"], [0, 1, 2], [2, 3, 4], [], 3⟩, by decide, by decide +kernel,
    by decide, by decide, by decide⟩

/-- C154: two graphs over one structure, both initialised; after removing `X` from one, the other can no longer be initialised for
`Y`, whose parent `X` was, but for `Z` it can. -/
def exTwoGraphs : Heap := exHeap.run [.fastInit 0 "Y", .fastInit 1 "Y"]

theorem shared_structure_refuted :
    (exTwoGraphs.run [.removeNode 0 "X"]).graphView 1 ≠ none ∧
    (exTwoGraphs.step (.fastInit 1 "Y")).2 = none ∧
    ((exTwoGraphs.run [.removeNode 0 "X"]).step (.fastInit 1 "Y")).2 = some .keyError ∧
    ((exTwoGraphs.run [.removeNode 0 "X"]).step (.fastInit 1 "Z")).2 = none := by
  refine ⟨?_, ?_, ?_, ?_⟩ <;> decide +kernel

/-- C155: variables with 2, 3 and 4 states; after removing the first, the second gets a 2 by 2 matrix and the third 3 by 3 ones. -/
theorem generator_after_removal_refuted :
    ((do let ng₁ ← ((NetGen.new ["X", "Y", "Z"] [2, 3, 4]).install [("X", "Y"), ("Y", "Z")]).graphRemoveNode "X"
         let ng₂ ← ng₁.generateCims 1 3 ⟨fun _ _ _ => 1 / 2, fun _ _ _ _ => 1 / 2⟩
         return ng₂.cims.map (fun L => L.map (fun p => (p.1, p.2.nodeStates, p.2.cims.map (fun m => m.cim.length))))) :
      Py (Option (List (Label × Nat × List Nat)))) = .ok (some [("Y", 2, [2]), ("Z", 3, [3, 3, 3])]) := by
  decide +kernel

/-- C80: the graph without nodes yet refuses even a label of its structure, and nothing changes. -/
example : exHeap.step (.removeNode 0 "X") = (exHeap, some .networkXError) :=
  graph_remove_unknown exHeap 0 (NetworkGraph.new ⟨["X", "Y", "Z"], [0, 1, 2], [2, 3, 4], [("X", "Y"), ("Y", "Z")], 3⟩) "X"
    (by decide) rfl

end PyCTBN
