import Verif.Lemmas.Structure

/-!
# C08 – C12: properties of `Structure`
-/

namespace PyCTBN
open Spec

/-- The running example: three ternary/binary variables, chain `X → Y → Z`. -/
def exStructure : Structure :=
  { labels := ["X", "Y", "Z"], indexes := [0, 1, 2], vals := [3, 2, 4], edges := [("X", "Y"), ("Y", "Z")], total := 3 }

theorem exStructure_wf : WFStructure exStructure := ⟨by decide, rfl, rfl⟩

/-- **C08** Removing a known node succeeds, forgets it and its incident edges, and changes nothing else. -/
theorem remove_node_only_that_node (s : Structure) (x : Label) (h : WFStructure s) (hx : x ∈ s.labels) :
    ∃ s', s.removeNode x = .ok s' ∧
      (∀ l, l ≠ x → s'.getNodeIndx l = s.getNodeIndx l ∧ s'.getStatesNumber l = s.getStatesNumber l) ∧
      (∀ l, l ∈ s'.labels ↔ l ∈ s.labels ∧ l ≠ x) ∧
      s'.labels.Sublist s.labels ∧
      s'.edges = s.edges.filter (fun e => decide (e.1 ≠ x ∧ e.2 ≠ x)) ∧
      s'.total = s.total ∧
      s'.getNodeIndx x = .error .valueError ∧ s'.getStatesNumber x = .error .valueError := by
  refine ⟨_, Structure.removeNode_of_mem h hx, ?_, ?_, ?_, ?_, rfl, ?_, ?_⟩
  · intro l hl
    exact ⟨lookupPos_eraseIdx h.idxLen hl, lookupPos_eraseIdx h.valLen hl⟩
  · intro l
    simp only [eraseIdx_idxOf]
    rw [h.nodup.mem_erase_iff]; tauto
  · exact List.eraseIdx_sublist _ _
  · apply List.filter_congr; intro e _
    by_cases h1 : e.1 = x <;> by_cases h2 : e.2 = x <;> simp [h1, h2]
  · apply lookupPos_not_mem; simp only [eraseIdx_idxOf]; rw [h.nodup.mem_erase_iff]; simp
  · apply lookupPos_not_mem; simp only [eraseIdx_idxOf]; rw [h.nodup.mem_erase_iff]; simp

/-- **C08**, error branch: removing an unknown label raises `ValueError`. -/
theorem remove_node_unknown_raises (s : Structure) (x : Label) (hx : x ∉ s.labels) :
    s.removeNode x = .error .valueError := Structure.removeNode_of_not_mem hx

example : WFStructure exStructure ∧ "Y" ∈ exStructure.labels := ⟨exStructure_wf, by decide⟩

/-- **C09** Whatever sequence of edits is made, the surviving labels are exactly the initial labels that were never
removed, they are distinct, and each still answers with its initial index and cardinality. -/
theorem structure_history_alignment (s : Structure) (ops : List Structure.Op) (h : WFStructure s) :
    let s' := ops.foldl Structure.apply s
    WFStructure s' ∧ s'.total = s.total ∧
      (∀ l, l ∈ s'.labels ↔ l ∈ s.labels ∧ Structure.Op.removeNode l ∉ ops) ∧
      (∀ l ∈ s'.labels, s'.getNodeIndx l = s.getNodeIndx l ∧ s'.getStatesNumber l = s.getStatesNumber l) := by
  induction ops generalizing s with
  | nil => simp [h]
  | cons op ops ih =>
    simp only [List.foldl_cons]
    have key : WFStructure (s.apply op) ∧ (s.apply op).total = s.total ∧
        (∀ l, l ∈ (s.apply op).labels ↔ l ∈ s.labels ∧ Structure.Op.removeNode l ≠ op) ∧
        (∀ l ∈ (s.apply op).labels, (s.apply op).getNodeIndx l = s.getNodeIndx l ∧
          (s.apply op).getStatesNumber l = s.getStatesNumber l) := by
      cases op with
      | addEdge e => exact ⟨⟨h.1, h.2, h.3⟩, rfl, by simp [Structure.apply, Structure.addEdge], fun l _ => ⟨rfl, rfl⟩⟩
      | cleanEdges => exact ⟨⟨h.1, h.2, h.3⟩, rfl, by simp [Structure.apply, Structure.cleanEdges], fun l _ => ⟨rfl, rfl⟩⟩
      | removeEdge e =>
        by_cases he : e ∈ s.edges
        · have : s.apply (.removeEdge e) = { s with edges := s.edges.erase e } := by
            simp [Structure.apply, Structure.removeEdge, pyRemove, he]
          rw [this]
          exact ⟨⟨h.1, h.2, h.3⟩, rfl, by simp, fun l _ => ⟨rfl, rfl⟩⟩
        · have : s.apply (.removeEdge e) = s := by
            simp [Structure.apply, Structure.removeEdge, pyRemove, he]
          rw [this]
          exact ⟨h, rfl, by simp, fun l _ => ⟨rfl, rfl⟩⟩
      | removeNode x =>
        by_cases hx : x ∈ s.labels
        · obtain ⟨s', hs', h1, h2, _, _, h3, _, _⟩ := remove_node_only_that_node s x h hx
          have hap : s.apply (.removeNode x) = s' := by simp [Structure.apply, hs']
          rw [hap]
          refine ⟨wf_removeNode h hs', h3, ?_, ?_⟩
          · intro l; rw [h2]; simp
          · intro l hl; exact h1 l ((h2 l).1 hl).2
        · have hap : s.apply (.removeNode x) = s := by
            simp [Structure.apply, Structure.removeNode_of_not_mem hx]
          rw [hap]
          refine ⟨h, rfl, ?_, fun l _ => ⟨rfl, rfl⟩⟩
          intro l
          constructor
          · intro hl; exact ⟨hl, by rintro ⟨⟩; exact hx hl⟩
          · exact fun hl => hl.1
    obtain ⟨k1, k2, k3, k4⟩ := key
    obtain ⟨i1, i2, i3, i4⟩ := ih (s.apply op) k1
    refine ⟨i1, i2.trans k2, ?_, ?_⟩
    · intro l; rw [i3, k3]; simp only [List.mem_cons, not_or, ne_eq]; tauto
    · intro l hl
      have hl' := ((i3 l).1 hl).1
      exact ⟨(i4 l hl).1.trans (k4 l hl').1, (i4 l hl).2.trans (k4 l hl').2⟩

example : (([.addEdge ("Z", "X"), .removeNode "Y", .removeNode "Q"] : List Structure.Op).foldl
    Structure.apply exStructure).labels = ["X", "Z"] := by decide

/-- **C10** (first half) Structure equality is an equivalence relation. -/
theorem structure_eq_equivalence :
    (∀ a : Structure, a.pyEq a = true) ∧ (∀ a b : Structure, a.pyEq b = true → b.pyEq a = true) ∧
      (∀ a b c : Structure, a.pyEq b = true → b.pyEq c = true → a.pyEq c = true) := by
  refine ⟨?_, ?_, ?_⟩
  · intro a; simp [Structure.pyEq]
  · intro a b; simp only [Structure.pyEq, Bool.and_eq_true, List.all_eq_true, decide_eq_true_eq]
    rintro ⟨⟨⟨⟨h1, h2⟩, h3⟩, h4⟩, h5⟩; exact ⟨⟨⟨⟨h2, h1⟩, h3.symm⟩, h4.symm⟩, h5.symm⟩
  · intro a b c; simp only [Structure.pyEq, Bool.and_eq_true, List.all_eq_true, decide_eq_true_eq]
    rintro ⟨⟨⟨⟨h1, h2⟩, h3⟩, h4⟩, h5⟩ ⟨⟨⟨⟨g1, g2⟩, g3⟩, g4⟩, g5⟩
    exact ⟨⟨⟨⟨fun x hx => g1 x (h1 x hx), fun x hx => h2 x (g2 x hx)⟩, h3.trans g3⟩, h4.trans g4⟩, h5.trans g5⟩

/-- **C10** (second half, partial) Equal structures *whose labels are listed in the same order* give every label the
same index and cardinality and contain the same edges.  Missing: structures with permuted labels, for which the claim is
false, see `structure_eq_ignores_label_order`. -/
theorem structure_eq_same_answers_partial (a b : Structure) (h : a.pyEq b = true) (ho : a.labels = b.labels) (l : Label) :
    a.getStatesNumber l = b.getStatesNumber l ∧ a.getNodeIndx l = b.getNodeIndx l ∧
      ∀ e, a.containsEdge e = b.containsEdge e := by
  simp only [Structure.pyEq, Bool.and_eq_true, decide_eq_true_eq] at h
  obtain ⟨⟨⟨_, h3⟩, h4⟩, h5⟩ := h
  simp [Structure.getStatesNumber, Structure.getNodeIndx, Structure.containsEdge, ho, h3, h4, h5]

example : exStructure.pyEq exStructure = true := by decide

/-- **C10** refuted: two well-formed structures compare equal and yet disagree on a cardinality. -/
theorem structure_eq_ignores_label_order :
    ∃ a b : Structure, WFStructure a ∧ WFStructure b ∧ a.pyEq b = true ∧
      ∃ l, a.getStatesNumber l = .ok 2 ∧ b.getStatesNumber l = .ok 3 :=
  ⟨⟨["X", "Y"], [0, 1], [2, 3], [], 2⟩, ⟨["Y", "X"], [0, 1], [2, 3], [], 2⟩,
    ⟨by decide, rfl, rfl⟩, ⟨by decide, rfl, rfl⟩, by decide, "X", rfl, rfl⟩

/-- **C11** After any history of edge edits the edge list realises the abstract multiset of edges, and `contains_edge`
is membership in it. -/
theorem edge_list_refines_bag (s : Structure) (ops : List EdgeOp) (e : Edge) :
    let s' := (ops.map EdgeOp.toOp).foldl Structure.apply s
    let bag := ops.foldl bagStep (fun f => s.edges.count f)
    s'.edges.count e = bag e ∧ (s'.containsEdge e = true ↔ 0 < bag e) := by
  suffices hc : ∀ f, ((ops.map EdgeOp.toOp).foldl Structure.apply s).edges.count f
      = ops.foldl bagStep (fun f => s.edges.count f) f by
    refine ⟨hc e, ?_⟩
    simp only [← hc e, List.count_pos_iff]; simp [Structure.containsEdge]
  intro f
  induction ops generalizing s with
  | nil => rfl
  | cons op ops ih =>
    simp only [List.map_cons, List.foldl_cons]
    rw [ih]
    refine congrArg (fun m : EdgeBag => ops.foldl bagStep m f) ?_
    funext g
    cases op with
    | add e =>
      simp only [EdgeOp.toOp, Structure.apply, Structure.addEdge, bagStep, List.count_append]
      by_cases h : g = e
      · subst h; simp
      · simp [h, Ne.symm h]
    | remove e =>
      simp only [EdgeOp.toOp, Structure.apply, bagStep]
      by_cases he : e ∈ s.edges
      · simp only [Structure.removeEdge, pyRemove, he, if_true]
        by_cases h : g = e
        · subst h; simp
        · simp [h, Ne.symm h]
      · simp only [Structure.removeEdge, pyRemove, he, if_false]
        by_cases h : g = e
        · subst h; simp [List.count_eq_zero.2 he]
        · simp [h]
    | clean => simp [EdgeOp.toOp, Structure.apply, Structure.cleanEdges, bagStep]

/-- **C11**, error branch: removing an absent edge raises `ValueError`; removing a present one succeeds. -/
theorem remove_edge_raises_iff_absent (s : Structure) (e : Edge) :
    (s.removeEdge e = .error .valueError ↔ s.containsEdge e = false) ∧
      (s.containsEdge e = true → ∃ s', s.removeEdge e = .ok s') := by
  by_cases he : e ∈ s.edges <;> simp [Structure.removeEdge, pyRemove, he, Structure.containsEdge]

example : (([.add ("X", "Y"), .remove ("X", "Y"), .remove ("Y", "Z")].map EdgeOp.toOp).foldl
    Structure.apply exStructure).containsEdge ("X", "Y") = true := by decide

/-- **C12** (first half) The label at the position reported for `l` is `l`. -/
theorem node_id_of_positional_index (s : Structure) (l : Label) (hl : l ∈ s.labels) :
    ∃ i, s.getPositionalNodeIndx l = .ok i ∧ s.getNodeId i = .ok l := by
  refine ⟨_, pyIndex_of_mem hl, ?_⟩
  rw [Structure.getNodeId, pyGet_of_lt (List.idxOf_lt_length_of_mem hl)]; simp

/-- **C12** (second half, partial) While indexes are still positions (as in every freshly imported structure with the
default row index) the label found at the index reported for `l` is `l`.  Missing: structures after a removal, for which
it is false, see `node_id_of_index_breaks_after_removal`. -/
theorem node_id_of_index_partial (s : Structure) (hi : s.indexes = List.range s.labels.length)
    (l : Label) (hl : l ∈ s.labels) :
    ∃ i, s.getNodeIndx l = .ok i ∧ s.getNodeId i = .ok l := by
  have hlt := List.idxOf_lt_length_of_mem hl
  refine ⟨s.labels.idxOf l, ?_, ?_⟩
  · rw [Structure.getNodeIndx, pyIndex_of_mem hl, Except.bind_ok', hi, pyGet_of_lt (by simpa using hlt)]; simp
  · rw [Structure.getNodeId, pyGet_of_lt hlt]; simp

example : exStructure.indexes = List.range exStructure.labels.length ∧ "Z" ∈ exStructure.labels := by decide

/-- **C12** refuted: after one `remove_node` on an imported structure, `get_node_id(get_node_indx(l))` raises. -/
theorem node_id_of_index_breaks_after_removal :
    ∃ s s' : Structure, WFStructure s ∧ s.indexes = List.range s.labels.length ∧ s.removeNode "X" = .ok s' ∧
      "Z" ∈ s'.labels ∧ s'.getNodeIndx "Z" = .ok 2 ∧ s'.getNodeId 2 = .error .indexError ∧
      s'.getNodeIndx "Y" = .ok 1 ∧ s'.getNodeId 1 = .ok "Z" :=
  ⟨exStructure, _, exStructure_wf, rfl, rfl, by decide, rfl, rfl, rfl, rfl⟩

end PyCTBN
