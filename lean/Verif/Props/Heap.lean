import Verif.Spec.Heap
import Verif.Props.Graph

/-!
# C151 – C153: shared objects
-/

namespace PyCTBN
open Spec

theorem structView_eq {h : Heap} {s : Nat} {v : Structure} :
    h.structView s = some v ↔ ∃ o, h.structs[s]? = some o ∧ h.labelLists[o.labels]? = some v.labels ∧
      h.edgeLists[o.edges]? = some v.edges ∧ o.indexes = v.indexes ∧ o.vals = v.vals ∧ o.total = v.total := by
  unfold Heap.structView
  cases ho : h.structs[s]? with
  | none => simp
  | some o =>
    cases hl : h.labelLists[o.labels]? with
    | none => simp [hl]
    | some ls =>
      cases he : h.edgeLists[o.edges]? with
      | none => simp [he]
      | some es =>
        obtain ⟨l, i, w, e, n⟩ := v
        simp [hl, he]
        tauto

/-- Methods of structures leave the graphs alone. -/
theorem structOp_graphs (h : Heap) (s : Nat) (op : Structure.Op) : (h.structOp s op).1.graphs = h.graphs := by
  unfold Heap.structOp
  cases h.structs[s]? with
  | none => rfl
  | some o =>
    dsimp only
    cases h.labelLists[o.labels]? with
    | none => rfl
    | some ls =>
      cases h.edgeLists[o.edges]? with
      | none => rfl
      | some es =>
        cases op with
        | addEdge e => rfl
        | cleanEdges => rfl
        | removeEdge e => dsimp only; cases pyRemove es e <;> rfl
        | removeNode x =>
          dsimp only [Heap.structRemoveNode]
          cases pyIndex ls x with
          | error e => rfl
          | ok pos =>
            dsimp only
            cases npDelete o.indexes pos with
            | error e => rfl
            | ok idx =>
              dsimp only
              cases npDelete o.vals pos <;> rfl

/-- What a method of the structure `t` does to the structures and lists: a list of labels and a list of edges of `t` may be
replaced in place, new lists of edges may appear, and only the object `t` may change, which keeps its list of labels and keeps its
list of edges or gets a new one. -/
theorem structOp_shape (h : Heap) (t : Nat) (op : Structure.Op) :
    (h.structOp t op).1 = h ∨
    ∃ o ls es fresh o', h.structs[t]? = some o ∧
      (h.structOp t op).1.labelLists = h.labelLists.set o.labels ls ∧
      (h.structOp t op).1.edgeLists = h.edgeLists.set o.edges es ++ fresh ∧
      (h.structOp t op).1.structs = h.structs.set t o' ∧ o'.labels = o.labels ∧
      (o'.edges = o.edges ∨ (o'.edges = h.edgeLists.length ∧ fresh ≠ [])) := by
  unfold Heap.structOp
  cases ho : h.structs[t]? with
  | none => exact .inl rfl
  | some o =>
    dsimp only
    have hsetT : h.structs.set t o = h.structs := by
      obtain ⟨hlt, he⟩ := List.getElem?_eq_some_iff.1 ho
      rw [← he, List.set_getElem_self]
    cases hl : h.labelLists[o.labels]? with
    | none => exact .inl rfl
    | some ls =>
      have hsetL : h.labelLists.set o.labels ls = h.labelLists := by
        obtain ⟨hlt, he⟩ := List.getElem?_eq_some_iff.1 hl
        rw [← he, List.set_getElem_self]
      cases he : h.edgeLists[o.edges]? with
      | none => exact .inl rfl
      | some es =>
        have hsetE : h.edgeLists.set o.edges es = h.edgeLists := by
          obtain ⟨hlt, he⟩ := List.getElem?_eq_some_iff.1 he
          rw [← he, List.set_getElem_self]
        cases op with
        | addEdge e =>
          exact .inr ⟨o, ls, es ++ [e], [], o, rfl, hsetL.symm, by simp, hsetT.symm, rfl, .inl rfl⟩
        | cleanEdges =>
          exact .inr ⟨o, ls, es, [[]], _, rfl, hsetL.symm, by rw [hsetE], rfl, rfl, .inr ⟨rfl, by simp⟩⟩
        | removeEdge e =>
          dsimp only
          cases pyRemove es e with
          | error _ => exact .inl rfl
          | ok es' => exact .inr ⟨o, ls, es', [], o, rfl, hsetL.symm, by simp, hsetT.symm, rfl, .inl rfl⟩
        | removeNode x =>
          dsimp only [Heap.structRemoveNode]
          cases pyIndex ls x with
          | error e => exact .inl rfl
          | ok pos =>
            dsimp only
            cases npDelete o.indexes pos with
            | error e => exact .inr ⟨o, _, es, [], o, rfl, rfl, by rw [hsetE]; simp, hsetT.symm, rfl, .inl rfl⟩
            | ok idx =>
              dsimp only
              cases npDelete o.vals pos with
              | error e => exact .inr ⟨o, _, es, [], _, rfl, rfl, by rw [hsetE]; simp, rfl, rfl, .inl rfl⟩
              | ok vals => exact .inr ⟨o, _, es, _, _, rfl, rfl, by rw [hsetE], rfl, rfl, .inr ⟨rfl, by simp⟩⟩

theorem getElem?_set_append_ne {α : Type _} {l fresh : List α} {i j : Nat} {a b : α} (hne : i ≠ j) (h : l[j]? = some b) :
    (l.set i a ++ fresh)[j]? = some b := by
  have hj : j < l.length := (List.getElem?_eq_some_iff.1 h).1
  rw [List.getElem?_append_left (by simpa using hj), List.getElem?_set_ne hne, h]

/-- A method of another structure does not show through `s`, if `s` shares no list with it. -/
theorem structOp_other {h : Heap} {s t : Nat} {op : Structure.Op} {v : Structure} (hown : OwnLists h s) (hts : t ≠ s)
    (hv : h.structView s = some v) : (h.structOp t op).1.structView s = some v := by
  rcases structOp_shape h t op with heq | ⟨o, ls, es, fresh, o', ho, h1, h2, h3, h4, h5⟩
  · rw [heq]; exact hv
  · obtain ⟨os, g1, g2, g3, g4⟩ := structView_eq.1 hv
    obtain ⟨n1, n2⟩ := hown os g1 t o hts ho
    refine structView_eq.2 ⟨os, ?_, ?_, ?_, g4⟩
    · rw [h3, List.getElem?_set_ne hts, g1]
    · rw [h1, List.getElem?_set_ne n1, g2]
    · rw [h2]; exact getElem?_set_append_ne n2 g3

/-- A method of `s` itself does to it what it does to the value. -/
theorem structOp_self {h : Heap} {s : Nat} {op : Structure.Op} {v : Structure} (hwf : WFStructure v)
    (hv : h.structView s = some v) : (h.structOp s op).1.structView s = some (v.apply op) := by
  obtain ⟨o, g1, g2, g3, g4, g5, g6⟩ := structView_eq.1 hv
  have hs : s < h.structs.length := (List.getElem?_eq_some_iff.1 g1).1
  have hl : o.labels < h.labelLists.length := (List.getElem?_eq_some_iff.1 g2).1
  have he : o.edges < h.edgeLists.length := (List.getElem?_eq_some_iff.1 g3).1
  unfold Heap.structOp
  simp only [g1, g2, g3]
  cases op with
  | addEdge e =>
    exact structView_eq.2 ⟨o, g1, g2, by simp [List.getElem?_set_self he, Structure.apply, Structure.addEdge], g4, g5, g6⟩
  | cleanEdges =>
    exact structView_eq.2 ⟨_, List.getElem?_set_self hs, g2, by simp [Structure.apply, Structure.cleanEdges], g4, g5, g6⟩
  | removeEdge e =>
    dsimp only
    cases hr : pyRemove v.edges e with
    | error err =>
      have : v.apply (.removeEdge e) = v := by simp [Structure.apply, Structure.removeEdge, hr, bind, Except.bind]
      rw [this]; exact hv
    | ok es' =>
      have : v.apply (.removeEdge e) = { v with edges := es' } := by
        simp [Structure.apply, Structure.removeEdge, hr, bind, Except.bind, pure, Except.pure]
      rw [this]
      exact structView_eq.2 ⟨o, g1, g2, by simp [List.getElem?_set_self he], g4, g5, g6⟩
  | removeNode x =>
    dsimp only [Heap.structRemoveNode]
    cases hp : pyIndex v.labels x with
    | error err =>
      have : v.apply (.removeNode x) = v := by simp [Structure.apply, Structure.removeNode, hp, bind, Except.bind]
      rw [this]; exact hv
    | ok pos =>
      have hpos : pos < v.labels.length := by
        unfold pyIndex at hp
        cases hi : v.labels.idxOf? x with
        | none => rw [hi] at hp; cases hp
        | some i =>
          rw [hi] at hp; cases hp
          exact (List.idxOf?_eq_some_iff.1 hi).1
      have hd1 : npDelete o.indexes pos = .ok (v.indexes.eraseIdx pos) := by
        rw [g4]; simp [npDelete, hwf.idxLen, hpos]
      have hd2 : npDelete o.vals pos = .ok (v.vals.eraseIdx pos) := by
        rw [g5]; simp [npDelete, hwf.valLen, hpos]
      have : v.apply (.removeNode x) = ⟨v.labels.eraseIdx pos, v.indexes.eraseIdx pos, v.vals.eraseIdx pos,
          v.edges.filter (fun e => e.1 != x && e.2 != x), v.total⟩ := by
        rw [g4] at hd1; rw [g5] at hd2
        simp [Structure.apply, Structure.removeNode, hp, hd1, hd2, bind, Except.bind, pure, Except.pure]
      rw [this]
      dsimp only
      rw [hd1]
      dsimp only
      rw [hd2]
      exact structView_eq.2 ⟨_, List.getElem?_set_self hs, List.getElem?_set_self hl, by simp, rfl, rfl, g6⟩

theorem heapOk_structOp {h : Heap} (hok : HeapOk h) (t : Nat) (op : Structure.Op) : HeapOk (h.structOp t op).1 := by
  rcases structOp_shape h t op with heq | ⟨o, ls, es, fresh, o', ho, h1, h2, h3, h4, h5⟩
  · rw [heq]; exact hok
  · have hmem : o ∈ h.structs := List.mem_of_getElem? ho
    obtain ⟨k1, k2⟩ := hok.lists o hmem
    constructor
    · intro p hp
      rw [h3] at hp
      rw [h1, h2]
      rcases List.mem_or_eq_of_mem_set hp with hp | rfl
      · obtain ⟨a, b⟩ := hok.lists p hp
        refine ⟨by simpa using a, ?_⟩
        simp; omega
      · rw [h4]
        refine ⟨by simpa using k1, ?_⟩
        rcases h5 with h5 | ⟨h5, hf⟩
        · rw [h5]; simp; omega
        · rw [h5]
          have : 0 < fresh.length := List.length_pos_iff.2 hf
          simp; omega
    · intro p hp
      rw [structOp_graphs] at hp
      rw [h3]; simpa using hok.structs p hp

theorem ownLists_structOp {h : Heap} {s : Nat} (hok : HeapOk h) (hown : OwnLists h s) (t : Nat) (op : Structure.Op) :
    OwnLists (h.structOp t op).1 s := by
  rcases structOp_shape h t op with heq | ⟨o, ls, es, fresh, o', ho, h1, h2, h3, h4, h5⟩
  · rw [heq]; exact hown
  · have ht : t < h.structs.length := (List.getElem?_eq_some_iff.1 ho).1
    intro p hp t' q htt hq
    rw [h3] at hp hq
    by_cases hts : t = s
    · subst hts
      rw [List.getElem?_set_self ht] at hp
      cases hp
      rw [List.getElem?_set_ne (Ne.symm htt)] at hq
      obtain ⟨n1, n2⟩ := hown o ho t' q htt hq
      refine ⟨by rw [h4]; exact n1, ?_⟩
      rcases h5 with h5 | ⟨h5, -⟩
      · rw [h5]; exact n2
      · rw [h5]; exact (hok.lists q (List.mem_of_getElem? hq)).2.ne
    · rw [List.getElem?_set_ne hts] at hp
      by_cases htt' : t = t'
      · subst htt'
        rw [List.getElem?_set_self ht] at hq
        cases hq
        obtain ⟨n1, n2⟩ := hown p hp t o htt ho
        refine ⟨by rw [h4]; exact n1, ?_⟩
        rcases h5 with h5 | ⟨h5, -⟩
        · rw [h5]; exact n2
        · rw [h5]; exact (hok.lists p (List.mem_of_getElem? hp)).2.ne'
      · rw [List.getElem?_set_ne htt'] at hq
        exact hown p hp t' q htt hq

/-- `HeapOk`, `OwnLists` and the view of a structure do not depend on the networkx graphs. -/
theorem structView_congr {h h' : Heap} (h1 : h'.labelLists = h.labelLists) (h2 : h'.edgeLists = h.edgeLists)
    (h3 : h'.structs = h.structs) (s : Nat) : h'.structView s = h.structView s := by
  unfold Heap.structView; rw [h1, h2, h3]

theorem ownLists_congr {h h' : Heap} {s : Nat} (hown : OwnLists h s) (h3 : h'.structs = h.structs) : OwnLists h' s := by
  unfold OwnLists; rw [h3]; exact hown

/-- A heap that differs in its graphs only, and these hold the same structures. -/
theorem heapOk_graphs {h h' : Heap} (hok : HeapOk h) (h1 : h'.labelLists = h.labelLists) (h2 : h'.edgeLists = h.edgeLists)
    (h3 : h'.structs = h.structs) (h4 : h'.graphs.map GraphObj.struct = h.graphs.map GraphObj.struct) : HeapOk h' := by
  constructor
  · rw [h1, h2, h3]; exact hok.lists
  · intro o ho
    rw [h3]
    have : o.struct ∈ h'.graphs.map GraphObj.struct := List.mem_map_of_mem ho
    rw [h4] at this
    obtain ⟨p, hp, hpe⟩ := List.mem_map.1 this
    rw [← hpe]; exact hok.structs p hp

/-- Same structures and lists, and graphs over the same structures. -/
structure GraphsOnly (h h' : Heap) : Prop where
  labels : h'.labelLists = h.labelLists
  edges : h'.edgeLists = h.edgeLists
  structs : h'.structs = h.structs
  holders : h'.graphs.map GraphObj.struct = h.graphs.map GraphObj.struct

theorem map_struct_set {gs : List GraphObj} {g : Nat} {o o' : GraphObj} (ho : gs[g]? = some o) (hs : o'.struct = o.struct) :
    (gs.set g o').map GraphObj.struct = gs.map GraphObj.struct := by
  rw [List.map_set, hs]
  obtain ⟨hlt, he⟩ := List.getElem?_eq_some_iff.1 ho
  have : (gs.map GraphObj.struct)[g]? = some o.struct := by rw [List.getElem?_map, ho]; rfl
  obtain ⟨hlt', he'⟩ := List.getElem?_eq_some_iff.1 this
  rw [← he', List.set_getElem_self]

theorem graphOp_graphsOnly (h : Heap) (g : Nat) (f : NetworkGraph → Py NetworkGraph) : GraphsOnly h (h.graphOp g f).1 := by
  unfold Heap.graphOp
  cases ho : h.graphs[g]? with
  | none => exact ⟨rfl, rfl, rfl, rfl⟩
  | some o =>
    cases hv : h.graphView g with
    | none => exact ⟨rfl, rfl, rfl, rfl⟩
    | some v =>
      dsimp only
      cases f v with
      | error e => exact ⟨rfl, rfl, rfl, rfl⟩
      | ok v' => exact ⟨rfl, rfl, rfl, map_struct_set ho rfl⟩

theorem fastInit_graphsOnly (h : Heap) (g : Nat) (n : Label) : GraphsOnly h (h.step (.fastInit g n)).1 := by
  show GraphsOnly h (match h.graphOp g (fun v => v.fastInit n) with
    | (h', none) => (h', none)
    | (_, some e) =>
      ((h.graphOp g (fun v => .ok ((v.addNodes v.struct.labels).addEdges v.struct.edges))).1, some e)).1
  have h1 := graphOp_graphsOnly h g (fun v => v.fastInit n)
  cases hg : h.graphOp g (fun v => v.fastInit n) with
  | mk h' e =>
    rw [hg] at h1
    cases e with
    | none => exact h1
    | some e => exact graphOp_graphsOnly h g _

theorem removeNode_holders (h : Heap) (g : Nat) (x : Label) :
    (h.step (.removeNode g x)).1.graphs.map GraphObj.struct = h.graphs.map GraphObj.struct := by
  show (h.graphRemoveNode g x).1.graphs.map GraphObj.struct = _
  unfold Heap.graphRemoveNode
  cases ho : h.graphs[g]? with
  | none => rfl
  | some o =>
    dsimp only
    have hlt : g < h.graphs.length := (List.getElem?_eq_some_iff.1 ho).1
    cases o.graph.removeNode x with
    | error e => rfl
    | ok gr =>
      dsimp only
      have hgr := structOp_graphs { h with graphs := h.graphs.set g { o with graph := gr } } o.struct (.removeNode x)
      cases hso : Heap.structOp { h with graphs := h.graphs.set g { o with graph := gr } } o.struct (.removeNode x) with
      | mk h2 e =>
        rw [hso] at hgr
        have hgr' : h2.graphs = h.graphs.set g { o with graph := gr } := hgr
        have hm : h2.graphs.map GraphObj.struct = h.graphs.map GraphObj.struct := by
          rw [hgr']; exact map_struct_set ho rfl
        cases e with
        | some e => exact hm
        | none =>
          have hold : h2.graphs[g]? = some { o with graph := gr } := by rw [hgr', List.getElem?_set_self hlt]
          exact (map_struct_set (o' := { o with graph := gr, derived := none }) hold rfl).trans hm

/-- One command: everything that matters about a structure with lists of its own. -/
theorem step_structure {h : Heap} {s : Nat} {v : Structure} (c : Cmd) (hok : HeapOk h) (hown : OwnLists h s)
    (hv : h.structView s = some v) (hwf : WFStructure v) (hc : ¬ Tampers h s c) :
    HeapOk (h.step c).1 ∧ OwnLists (h.step c).1 s ∧
      (h.step c).1.structView s = some ((editOf h s c).toList.foldl Structure.apply v) := by
  have viaGraphs : ∀ h', GraphsOnly h h' → HeapOk h' ∧ OwnLists h' s ∧ h'.structView s = some v := by
    intro h' hg
    exact ⟨heapOk_graphs hok hg.labels hg.edges hg.structs hg.holders, ownLists_congr hown hg.structs,
      (structView_congr hg.labels hg.edges hg.structs s).trans hv⟩
  obtain ⟨o, g1, g2, g3, g4⟩ := structView_eq.1 hv
  have hsl : s < h.structs.length := (List.getElem?_eq_some_iff.1 g1).1
  cases c with
  | newLabels ls =>
    refine ⟨⟨fun p hp => ?_, hok.structs⟩, hown, structView_eq.2 ⟨o, g1, ?_, g3, g4⟩⟩
    · obtain ⟨a, b⟩ := hok.lists p hp
      exact ⟨by simp [Heap.step]; omega, b⟩
    · show (h.labelLists ++ [ls])[o.labels]? = _
      rw [List.getElem?_append_left (List.getElem?_eq_some_iff.1 g2).1]; exact g2
  | newEdges es =>
    refine ⟨⟨fun p hp => ?_, hok.structs⟩, hown, structView_eq.2 ⟨o, g1, g2, ?_, g4⟩⟩
    · obtain ⟨a, b⟩ := hok.lists p hp
      exact ⟨a, by simp [Heap.step]; omega⟩
    · show (h.edgeLists ++ [es])[o.edges]? = _
      rw [List.getElem?_append_left (List.getElem?_eq_some_iff.1 g3).1]; exact g3
  | editLabels r ls =>
    have hne : r ≠ o.labels := fun hr => hc ⟨o, g1, hr.symm⟩
    refine ⟨⟨fun p hp => ?_, hok.structs⟩, hown, structView_eq.2 ⟨o, g1, ?_, g3, g4⟩⟩
    · simpa [Heap.step] using hok.lists p hp
    · show (h.labelLists.set r ls)[o.labels]? = _
      rw [List.getElem?_set_ne hne]; exact g2
  | editEdges r es =>
    have hne : r ≠ o.edges := fun hr => hc ⟨o, g1, hr.symm⟩
    refine ⟨⟨fun p hp => ?_, hok.structs⟩, hown, structView_eq.2 ⟨o, g1, g2, ?_, g4⟩⟩
    · simpa [Heap.step] using hok.lists p hp
    · show (h.edgeLists.set r es)[o.edges]? = _
      rw [List.getElem?_set_ne hne]; exact g3
  | newStruct l idx vals e n =>
    have hne : o.labels ≠ l ∧ o.edges ≠ e := ⟨fun hr => hc ⟨o, g1, .inl hr⟩, fun hr => hc ⟨o, g1, .inr hr⟩⟩
    by_cases hin : l < h.labelLists.length ∧ e < h.edgeLists.length
    · have hst : (h.step (.newStruct l idx vals e n)).1 = { h with structs := h.structs ++ [⟨l, idx, vals, e, n⟩] } := by
        simp [Heap.step, hin]
      rw [hst]
      refine ⟨⟨fun p hp => ?_, fun p hp => ?_⟩, ?_, structView_eq.2 ⟨o, ?_, g2, g3, g4⟩⟩
      · rcases List.mem_append.1 hp with hp | hp
        · exact hok.lists p hp
        · rw [List.mem_singleton.1 hp]; exact hin
      · have := hok.structs p hp
        simp; omega
      · intro p hp t q hts hq
        have hp' : h.structs[s]? = some p := by
          rw [← hp]; exact (List.getElem?_append_left hsl).symm
        have hpo : p = o := by rw [g1] at hp'; exact (Option.some.inj hp').symm
        by_cases ht : t < h.structs.length
        · have hq' : h.structs[t]? = some q := by
            rw [← hq]; exact (List.getElem?_append_left ht).symm
          exact hown p hp' t q hts hq'
        · have hq' : (h.structs ++ [(⟨l, idx, vals, e, n⟩ : StructObj)])[t]? = some q := hq
          rw [List.getElem?_append_right (by omega)] at hq'
          have hmem := List.mem_of_getElem? hq'
          rw [List.mem_singleton.1 hmem, hpo]
          exact ⟨hne.1.symm, hne.2.symm⟩
      · show (h.structs ++ [(⟨l, idx, vals, e, n⟩ : StructObj)])[s]? = _
        rw [List.getElem?_append_left hsl]; exact g1
    · have hst : (h.step (.newStruct l idx vals e n)).1 = h := by simp [Heap.step, hin]
      rw [hst]; exact ⟨hok, hown, hv⟩
  | newGraph t =>
    by_cases ht : t < h.structs.length
    · have hst : (h.step (.newGraph t)).1 = { h with graphs := h.graphs ++ [⟨t, DiGraph.empty, none⟩] } := by
        simp [Heap.step, ht]
      rw [hst]
      refine ⟨⟨hok.lists, fun p hp => ?_⟩, hown, hv⟩
      rcases List.mem_append.1 hp with hp | hp
      · exact hok.structs p hp
      · rw [List.mem_singleton.1 hp]; exact ht
    · have hst : (h.step (.newGraph t)).1 = h := by simp [Heap.step, ht]
      rw [hst]; exact ⟨hok, hown, hv⟩
  | onStruct t op =>
    refine ⟨heapOk_structOp hok t op, ownLists_structOp hok hown t op, ?_⟩
    by_cases hts : t = s
    · subst hts
      simpa [editOf, Heap.step] using structOp_self hwf hv
    · simpa [editOf, Heap.step, hts] using structOp_other hown hts hv
  | addNodes g ls => exact viaGraphs _ (graphOp_graphsOnly h g _)
  | addEdges g es => exact viaGraphs _ (graphOp_graphsOnly h g _)
  | removeEdges g es => exact viaGraphs _ (graphOp_graphsOnly h g _)
  | fastInit g n => exact viaGraphs _ (fastInit_graphsOnly h g n)
  | removeNode g x =>
    show HeapOk (h.graphRemoveNode g x).1 ∧ OwnLists (h.graphRemoveNode g x).1 s ∧
      (h.graphRemoveNode g x).1.structView s = some ((editOf h s (.removeNode g x)).toList.foldl Structure.apply v)
    unfold Heap.graphRemoveNode
    cases ho : h.graphs[g]? with
    | none => simpa [editOf, ho] using ⟨hok, hown, hv⟩
    | some og =>
      dsimp only
      by_cases hx : og.graph.hasNode x = true
      · have hrm : og.graph.removeNode x = .ok ⟨og.graph.nodes.filter (fun p => p.1 != x),
            og.graph.edges.filter (fun e => e.1 != x && e.2 != x)⟩ := by simp [DiGraph.removeNode, hx]
        rw [hrm]
        dsimp only
        set gr : DiGraph := ⟨og.graph.nodes.filter (fun p => p.1 != x), og.graph.edges.filter (fun e => e.1 != x && e.2 != x)⟩
        set h1 : Heap := { h with graphs := h.graphs.set g { og with graph := gr } } with hh1
        have hg1 : GraphsOnly h h1 := ⟨rfl, rfl, rfl, map_struct_set ho rfl⟩
        obtain ⟨k1, k2, k3⟩ := viaGraphs h1 hg1
        have hop := heapOk_structOp k1 og.struct (.removeNode x)
        have hown' := ownLists_structOp k1 k2 og.struct (.removeNode x)
        have hview : (h1.structOp og.struct (.removeNode x)).1.structView s =
            some ((editOf h s (.removeNode g x)).toList.foldl Structure.apply v) := by
          by_cases hs : og.struct = s
          · rw [hs]
            simpa [editOf, ho, hs, hx] using structOp_self hwf k3
          · simpa [editOf, ho, hs] using structOp_other k2 hs k3
        have hgr : (h1.structOp og.struct (.removeNode x)).1.graphs = h1.graphs := structOp_graphs _ _ _
        cases hso : h1.structOp og.struct (.removeNode x) with
        | mk h2 e =>
          rw [hso] at hop hown' hview hgr
          cases e with
          | some e => exact ⟨hop, hown', hview⟩
          | none =>
            dsimp only
            have hlt : g < h.graphs.length := (List.getElem?_eq_some_iff.1 ho).1
            have hold : h2.graphs[g]? = some { og with graph := gr } := by
              show h2.graphs[g]? = _
              have : h2.graphs = h.graphs.set g { og with graph := gr } := hgr
              rw [this, List.getElem?_set_self hlt]
            exact ⟨heapOk_graphs hop rfl rfl rfl (map_struct_set hold rfl), ownLists_congr hown' rfl,
              (structView_congr rfl rfl rfl s).trans hview⟩
      · have hrm : og.graph.removeNode x = .error .networkXError := by simp [DiGraph.removeNode, hx]
        rw [hrm]
        dsimp only
        refine ⟨hok, hown, ?_⟩
        simpa [editOf, ho, hx] using hv

/-- **C151** A structure that shares its lists with no other structure behaves, in every program, like a value: whatever the program
does to other structures, lists and graphs, what it sees through this structure is the initial structure with the edits made to it,
in order, those made through graphs included. -/
theorem unshared_structure_is_a_value (h : Heap) (s : Nat) (v : Structure) (p : List Cmd) (hok : HeapOk h)
    (hown : OwnLists h s) (hv : h.structView s = some v) (hwf : WFStructure v) (hp : Untampered s h p) :
    (h.run p).structView s = some ((editsOf s h p).foldl Structure.apply v) := by
  induction p generalizing h v with
  | nil => exact hv
  | cons c p ih =>
    obtain ⟨h1, h2, h3⟩ := step_structure c hok hown hv hwf hp.1
    have hwf' : WFStructure ((editOf h s c).toList.foldl Structure.apply v) :=
      (structure_history_alignment v _ hwf).1
    have := ih (h.step c).1 _ h1 h2 h3 hwf' hp.2
    show ((h.step c).1.run p).structView s = _
    rw [this, editsOf, List.foldl_append]

theorem graphView_eq {h : Heap} {g : Nat} {v : NetworkGraph} :
    h.graphView g = some v ↔ ∃ o, h.graphs[g]? = some o ∧ h.structView o.struct = some v.struct ∧ o.graph = v.graph ∧
      o.derived = v.derived := by
  unfold Heap.graphView
  cases ho : h.graphs[g]? with
  | none => simp
  | some o =>
    cases hs : h.structView o.struct with
    | none => simp [hs]
    | some w =>
      obtain ⟨s, gr, d⟩ := v
      simp [hs]

/-- A command that is not a method call on `g` leaves the object `g` alone. -/
theorem step_graphs_other {h : Heap} {g : Nat} {o : GraphObj} (c : Cmd) (hg : h.graphs[g]? = some o)
    (hc : callsGraph g c = false) : (h.step c).1.graphs[g]? = some o := by
  have hlt : g < h.graphs.length := (List.getElem?_eq_some_iff.1 hg).1
  have viaOp : ∀ g' f, g' ≠ g → (h.graphOp g' f).1.graphs[g]? = some o := by
    intro g' f hne
    unfold Heap.graphOp
    cases ho : h.graphs[g']? with
    | none => exact hg
    | some o' =>
      cases hv : h.graphView g' with
      | none => exact hg
      | some v =>
        dsimp only
        cases f v with
        | error e => exact hg
        | ok v' => show (h.graphs.set g' _)[g]? = _; rw [List.getElem?_set_ne hne]; exact hg
  cases c with
  | newLabels ls => exact hg
  | newEdges ls => exact hg
  | editLabels r ls => exact hg
  | editEdges r ls => exact hg
  | newStruct l idx vals e n =>
    show (if l < h.labelLists.length ∧ e < h.edgeLists.length then
      (({ h with structs := h.structs ++ [⟨l, idx, vals, e, n⟩] } : Heap), (none : Option PyErr))
      else (h, some .attributeError)).1.graphs[g]? = _
    split <;> exact hg
  | newGraph t =>
    show (if t < h.structs.length then (({ h with graphs := h.graphs ++ [⟨t, DiGraph.empty, none⟩] } : Heap), (none : Option PyErr))
      else (h, some .attributeError)).1.graphs[g]? = _
    split
    · show (h.graphs ++ [_])[g]? = _
      rw [List.getElem?_append_left hlt]; exact hg
    · exact hg
  | onStruct t op => show (h.structOp t op).1.graphs[g]? = _; rw [structOp_graphs]; exact hg
  | addNodes g' ls => exact viaOp g' _ (by simpa [callsGraph] using hc)
  | addEdges g' ls => exact viaOp g' _ (by simpa [callsGraph] using hc)
  | removeEdges g' ls => exact viaOp g' _ (by simpa [callsGraph] using hc)
  | fastInit g' n =>
    have hne : g' ≠ g := by simpa [callsGraph] using hc
    show (match h.graphOp g' (fun v => v.fastInit n) with
      | (h', none) => (h', none)
      | (_, some e) =>
        ((h.graphOp g' (fun v => .ok ((v.addNodes v.struct.labels).addEdges v.struct.edges))).1, some e)).1.graphs[g]? = _
    have h1 := viaOp g' (fun v => v.fastInit n) hne
    cases hgo : h.graphOp g' (fun v => v.fastInit n) with
    | mk h' e =>
      rw [hgo] at h1
      cases e with
      | none => exact h1
      | some e => exact viaOp g' _ hne
  | removeNode g' x =>
    have hne : g' ≠ g := by simpa [callsGraph] using hc
    show (h.graphRemoveNode g' x).1.graphs[g]? = _
    unfold Heap.graphRemoveNode
    cases ho : h.graphs[g']? with
    | none => exact hg
    | some o' =>
      dsimp only
      cases o'.graph.removeNode x with
      | error e => exact hg
      | ok gr =>
        dsimp only
        have hgr := structOp_graphs { h with graphs := h.graphs.set g' { o' with graph := gr } } o'.struct (.removeNode x)
        cases hso : Heap.structOp { h with graphs := h.graphs.set g' { o' with graph := gr } } o'.struct (.removeNode x) with
        | mk h2 e =>
          rw [hso] at hgr
          have hgr' : h2.graphs = h.graphs.set g' { o' with graph := gr } := hgr
          cases e with
          | some e => show h2.graphs[g]? = _; rw [hgr', List.getElem?_set_ne hne]; exact hg
          | none =>
            show (h2.graphs.set g' _)[g]? = _
            rw [List.getElem?_set_ne hne, hgr', List.getElem?_set_ne hne]; exact hg

theorem graphOp_self {h : Heap} {g : Nat} {v : NetworkGraph} {f : NetworkGraph → Py NetworkGraph}
    (hv : h.graphView g = some v) :
    (∀ v', f v = .ok v' → v'.struct = v.struct → (h.graphOp g f).2 = none ∧ (h.graphOp g f).1.graphView g = some v') ∧
    (∀ e, f v = .error e → (h.graphOp g f).2 = some e) := by
  obtain ⟨o, g1, g2, g3, g4⟩ := graphView_eq.1 hv
  have hlt : g < h.graphs.length := (List.getElem?_eq_some_iff.1 g1).1
  unfold Heap.graphOp
  simp only [g1, hv]
  constructor
  · intro v' hf hs
    rw [hf]
    refine ⟨rfl, graphView_eq.2 ⟨_, List.getElem?_set_self hlt, ?_, rfl, rfl⟩⟩
    rw [hs]
    exact (structView_congr (h := h) rfl rfl rfl _).trans g2
  · intro e hf
    rw [hf]

theorem fastInit_struct {v v' : NetworkGraph} {n : Label} (h : v.fastInit n = .ok v') : v'.struct = v.struct := by
  unfold NetworkGraph.fastInit at h
  simp only [bind, Except.bind] at h
  split at h
  · cases h
  · split at h
    · cases h
    · split at h
      · cases h
      · cases h; rfl

/-- A method call on `g` does to it what it does to the value, if no other structure shares the lists of its structure. -/
theorem step_graph_self {h : Heap} {g : Nat} {v : NetworkGraph} (c : Cmd) (hc : callsGraph g c = true)
    (hv : h.graphView g = some v) (hwf : WFStructure v.struct) : (h.step c).1.graphView g = some (graphCall v c) := by
  cases c with
  | newLabels ls => cases hc
  | newEdges ls => cases hc
  | editLabels r ls => cases hc
  | editEdges r ls => cases hc
  | newStruct l idx vals e n => cases hc
  | newGraph t => cases hc
  | onStruct t op => cases hc
  | addNodes g' ls =>
    have hg : g' = g := by simpa [callsGraph] using hc
    subst hg
    exact ((graphOp_self (f := fun v => .ok (v.addNodes ls)) hv).1 _ rfl rfl).2
  | addEdges g' es =>
    have hg : g' = g := by simpa [callsGraph] using hc
    subst hg
    exact ((graphOp_self (f := fun v => .ok (v.addEdges es)) hv).1 _ rfl rfl).2
  | removeEdges g' es =>
    have hg : g' = g := by simpa [callsGraph] using hc
    subst hg
    exact ((graphOp_self (f := fun v => .ok (v.removeEdges es)) hv).1 _ rfl rfl).2
  | fastInit g' n =>
    have hg : g' = g := by simpa [callsGraph] using hc
    subst hg
    show (match h.graphOp g' (fun v => v.fastInit n) with
      | (h', none) => (h', none)
      | (_, some e) =>
        ((h.graphOp g' (fun v => .ok ((v.addNodes v.struct.labels).addEdges v.struct.edges))).1, some e)).1.graphView g' =
      some (match v.fastInit n with
        | .ok v' => v'
        | .error _ => (v.addNodes v.struct.labels).addEdges v.struct.edges)
    have hself := graphOp_self (f := fun v => v.fastInit n) hv
    cases hf : v.fastInit n with
    | ok v' =>
      obtain ⟨e1, e2⟩ := hself.1 v' hf (fastInit_struct hf)
      cases hgo : h.graphOp g' (fun v => v.fastInit n) with
      | mk h' e => rw [hgo] at e1 e2; dsimp only at e1; subst e1; exact e2
    | error err =>
      have e1 := hself.2 err hf
      cases hgo : h.graphOp g' (fun v => v.fastInit n) with
      | mk h' e =>
        rw [hgo] at e1; dsimp only at e1; subst e1
        exact ((graphOp_self (f := fun v => .ok ((v.addNodes v.struct.labels).addEdges v.struct.edges)) hv).1 _ rfl rfl).2
  | removeNode g' x =>
    have hg : g' = g := by simpa [callsGraph] using hc
    subst hg
    obtain ⟨o, g1, g2, g3, g4⟩ := graphView_eq.1 hv
    have hlt : g' < h.graphs.length := (List.getElem?_eq_some_iff.1 g1).1
    show (h.graphRemoveNode g' x).1.graphView g' = some (match v.removeNode x with
      | .ok v' => v'
      | .error _ => match v.graph.removeNode x with
        | .ok gr => { v with graph := gr }
        | .error _ => v)
    unfold Heap.graphRemoveNode
    simp only [g1, g3]
    cases hrm : v.graph.removeNode x with
    | error e =>
      have : v.removeNode x = .error e := by simp [NetworkGraph.removeNode, hrm, bind, Except.bind]
      rw [this]; exact hv
    | ok gr =>
      dsimp only
      set h1 : Heap := { h with graphs := h.graphs.set g' { o with graph := gr } } with hh1
      have hv1 : h1.structView o.struct = some v.struct := (structView_congr (h := h) rfl rfl rfl _).trans g2
      have hself := structOp_self (op := .removeNode x) hwf hv1
      have hgr := structOp_graphs h1 o.struct (.removeNode x)
      have herr : (h1.structOp o.struct (.removeNode x)).2 =
          match v.struct.removeNode x with | .ok _ => none | .error e => some e := by
        obtain ⟨os, p1, p2, p3, p4, p5, p6⟩ := structView_eq.1 hv1
        unfold Heap.structOp
        simp only [p1, p2, p3]
        unfold Heap.structRemoveNode Structure.removeNode
        cases hp : pyIndex v.struct.labels x with
        | error e => rfl
        | ok pos =>
          simp only [p4, p5, bind, Except.bind]
          cases npDelete v.struct.indexes pos with
          | error e => rfl
          | ok idx =>
            dsimp only
            cases npDelete v.struct.vals pos <;> rfl
      cases hso : h1.structOp o.struct (.removeNode x) with
      | mk h2 e =>
        rw [hso] at hself hgr herr
        have hgr' : h2.graphs = h.graphs.set g' { o with graph := gr } := hgr
        have hlt2 : g' < h2.graphs.length := by rw [hgr']; simpa using hlt
        cases hsr : v.struct.removeNode x with
        | error err =>
          rw [hsr] at herr
          dsimp only at herr; subst herr
          have : v.removeNode x = .error err := by simp [NetworkGraph.removeNode, hrm, hsr, bind, Except.bind]
          rw [this]
          have hap : v.struct.apply (.removeNode x) = v.struct := by simp [Structure.apply, hsr]
          rw [hap] at hself
          exact graphView_eq.2 ⟨{ o with graph := gr }, by rw [hgr', List.getElem?_set_self hlt], hself, rfl, g4⟩
        | ok s' =>
          rw [hsr] at herr
          dsimp only at herr; subst herr
          have : v.removeNode x = .ok ⟨s', gr, none⟩ := by
            simp [NetworkGraph.removeNode, hrm, hsr, bind, Except.bind, pure, Except.pure]
          rw [this]
          have hap : v.struct.apply (.removeNode x) = s' := by simp [Structure.apply, hsr]
          rw [hap] at hself
          exact graphView_eq.2 ⟨{ o with graph := gr, derived := none }, List.getElem?_set_self hlt2,
            (structView_congr (h := h2) rfl rfl rfl _).trans hself, rfl, rfl⟩

theorem graphCall_wf {v : NetworkGraph} (c : Cmd) (hwf : WFStructure v.struct) : WFStructure (graphCall v c).struct := by
  cases c with
  | fastInit g n =>
    show WFStructure (match v.fastInit n with
      | .ok v' => v'
      | .error _ => (v.addNodes v.struct.labels).addEdges v.struct.edges).struct
    cases hf : v.fastInit n with
    | ok v' => show WFStructure v'.struct; rw [fastInit_struct hf]; exact hwf
    | error e => exact hwf
  | removeNode g x =>
    show WFStructure (match v.removeNode x with
      | .ok v' => v'
      | .error _ => match v.graph.removeNode x with
        | .ok gr => { v with graph := gr }
        | .error _ => v).struct
    cases hr : v.removeNode x with
    | error e =>
      dsimp only
      cases v.graph.removeNode x <;> exact hwf
    | ok v' =>
      unfold NetworkGraph.removeNode at hr
      cases hg : v.graph.removeNode x with
      | error e => simp [hg, bind, Except.bind] at hr
      | ok gr =>
        cases hs : v.struct.removeNode x with
        | error e => simp [hg, hs, bind, Except.bind] at hr
        | ok s' =>
          simp [hg, hs, bind, Except.bind, pure, Except.pure] at hr
          rw [← hr]; exact wf_removeNode hwf hs
  | _ => exact hwf

/-- **C152** A graph whose structure is edited through this graph only (other graphs may hold it, to read), and shares its lists with
no other structure, behaves in every program like a value: the program sees through it the initial graph with the calls made to it,
in order. -/
theorem unshared_graph_is_a_value (h : Heap) (g s : Nat) (v : NetworkGraph) (p : List Cmd) (hok : HeapOk h)
    (hs : h.graphs[g]?.map GraphObj.struct = some s) (hown : OwnLists h s) (hv : h.graphView g = some v)
    (hwf : WFStructure v.struct) (hp : EditedOnlyThrough g s h p) :
    (h.run p).graphView g = some ((p.filter (callsGraph g)).foldl graphCall v) := by
  induction p generalizing h v with
  | nil => exact hv
  | cons c p ih =>
    obtain ⟨o, g1, g2, g3, g4⟩ := graphView_eq.1 hv
    have hos : o.struct = s := by rw [g1] at hs; simpa using hs
    have g2' : h.structView s = some v.struct := hos ▸ g2
    obtain ⟨h1, h2, h3⟩ := step_structure c hok hown g2' hwf hp.1
    by_cases hc : callsGraph g c = true
    · have hv' := step_graph_self c hc hv hwf
      have hs' : (h.step c).1.graphs[g]?.map GraphObj.struct = some s := by
        have hhold : (h.step c).1.graphs.map GraphObj.struct = h.graphs.map GraphObj.struct := by
          cases c with
          | addNodes g' ls => exact (graphOp_graphsOnly h g' _).holders
          | addEdges g' ls => exact (graphOp_graphsOnly h g' _).holders
          | removeEdges g' ls => exact (graphOp_graphsOnly h g' _).holders
          | fastInit g' n => exact (fastInit_graphsOnly h g' n).holders
          | removeNode g' x => exact removeNode_holders h g' x
          | _ => cases hc
        rw [← List.getElem?_map, hhold, List.getElem?_map]; exact hs
      have := ih (h.step c).1 (graphCall v c) h1 hs' h2 hv' (graphCall_wf c hwf) hp.2.2
      show ((h.step c).1.run p).graphView g = _
      rw [this, List.filter_cons_of_pos hc, List.foldl_cons]
    · have hc' : callsGraph g c = false := by simpa using hc
      have hed : editOf h s c = none := by
        by_contra hne
        exact hc (hp.2.1 hne)
      rw [hed] at h3
      have hgo := step_graphs_other c g1 hc'
      have hv' : (h.step c).1.graphView g = some v :=
        graphView_eq.2 ⟨o, hgo, by rw [hos]; exact h3, g3, g4⟩
      have hs' : (h.step c).1.graphs[g]?.map GraphObj.struct = some s := by rw [hgo]; simp [hos]
      have := ih (h.step c).1 v h1 hs' h2 hv' hwf hp.2.2
      show ((h.step c).1.run p).graphView g = _
      rw [this, List.filter_cons_of_neg (by simpa using hc')]

end PyCTBN
