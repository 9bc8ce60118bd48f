import Verif.Spec.Structure
import Verif.Lemmas.Py

namespace PyCTBN
open Spec

theorem Structure.getNodeIndx_eq (s : Structure) (l : Label) :
    s.getNodeIndx l = lookupPos s.labels s.indexes l := rfl
theorem Structure.getStatesNumber_eq (s : Structure) (l : Label) :
    s.getStatesNumber l = lookupPos s.labels s.vals l := rfl

theorem Structure.removeNode_of_mem {s : Structure} {x : Label} (h : WFStructure s) (hx : x ∈ s.labels) :
    s.removeNode x = .ok { s with
      labels := s.labels.eraseIdx (s.labels.idxOf x)
      indexes := s.indexes.eraseIdx (s.labels.idxOf x)
      vals := s.vals.eraseIdx (s.labels.idxOf x)
      edges := s.edges.filter (fun e => e.1 != x && e.2 != x) } := by
  have hi := List.idxOf_lt_length_of_mem hx
  unfold Structure.removeNode
  rw [pyIndex_of_mem hx]
  simp [npDelete, h.idxLen, h.valLen, hi]

theorem Structure.removeNode_of_not_mem {s : Structure} {x : Label} (hx : x ∉ s.labels) :
    s.removeNode x = .error .valueError := by
  unfold Structure.removeNode; rw [pyIndex_of_not_mem hx]; rfl

theorem eraseIdx_idxOf {α} [BEq α] [LawfulBEq α] (l : List α) (x : α) : l.eraseIdx (l.idxOf x) = l.erase x := by
  induction l with
  | nil => rfl
  | cons a l ih =>
    by_cases h : a = x
    · subst h; simp
    · have hb : (a == x) = false := by simpa using h
      simp [List.idxOf_cons, hb, List.erase_cons, ih]

theorem wf_removeNode {s s' : Structure} {x : Label} (h : WFStructure s) (hr : s.removeNode x = .ok s') :
    WFStructure s' := by
  by_cases hx : x ∈ s.labels
  · rw [Structure.removeNode_of_mem h hx] at hr
    injection hr with hr; subst hr
    have hi := List.idxOf_lt_length_of_mem hx
    refine ⟨?_, ?_, ?_⟩
    · simp only [eraseIdx_idxOf]; exact h.nodup.erase x
    · simp [List.length_eraseIdx, h.idxLen]
    · simp [List.length_eraseIdx, h.valLen]
  · rw [Structure.removeNode_of_not_mem hx] at hr; cases hr

end PyCTBN
