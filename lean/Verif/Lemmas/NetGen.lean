import Verif.Spec.NetGen
import Verif.Lemmas.Round
import Verif.Lemmas.Graph
import Verif.Lemmas.Radix
import Mathlib.Algebra.Order.BigOperators.Group.List

namespace PyCTBN
open Spec DiGraph

/-! ## The generated graph -/

theorem foldl_setNode_keys (rows : List ((Label × Nat × Nat) × Nat)) (gr : DiGraph)
    (hnd : (rows.map (fun t => t.1.1)).Nodup) (hnew : ∀ t ∈ rows, t.1.1 ∉ gr.keys) :
    (rows.foldl (fun gr t => gr.setNode t.1.1 ⟨t.1.2.1, t.1.2.2, t.2⟩) gr).keys = gr.keys ++ rows.map (fun t => t.1.1) := by
  induction rows generalizing gr with
  | nil => simp
  | cons t rows ih =>
    simp only [List.map_cons, List.nodup_cons] at hnd
    rw [List.foldl_cons, ih _ hnd.2]
    · rw [setNode_keys_of_not_mem (hnew t (by simp))]; simp
    · intro u hu
      rw [mem_setNode_keys]
      rintro (h | h)
      · exact hnew u (by simp [hu]) h
      · exact hnd.1 (h ▸ List.mem_map_of_mem (f := fun t : (Label × Nat × Nat) × Nat => t.1.1) hu)

theorem touch_of_mem {g : DiGraph} {l : Label} (h : l ∈ g.keys) : g.touch l = g := by
  unfold touch; rw [if_pos (hasNode_iff.2 h)]

theorem addEdgesFrom_keys_of_closed {g : DiGraph} {es : List Edge} (h : ∀ e ∈ es, e.1 ∈ g.keys ∧ e.2 ∈ g.keys) :
    (g.addEdgesFrom es).keys = g.keys := by
  unfold addEdgesFrom
  induction es generalizing g with
  | nil => rfl
  | cons e es ih =>
    have hk : (g.addEdge e).keys = g.keys := by
      rw [addEdge_keys, touch_of_mem (h e (by simp)).1, touch_of_mem (h e (by simp)).2]
    rw [List.foldl_cons, ih, hk]
    intro e' he'
    rw [hk]
    exact h e' (by simp [he'])

/-- The structure built by `generate_graph`. -/
def genStruct (labels : List Label) (vals : List Nat) (edges : List Edge) : Structure :=
  ⟨labels, List.range labels.length, vals, edges, labels.length⟩

/-- The graph built by `generate_graph`. -/
def genGraph (labels : List Label) (vals : List Nat) (edges : List Edge) : NetworkGraph :=
  ((NetworkGraph.new (genStruct labels vals edges)).addNodes labels).addEdges edges

theorem genStruct_closed {labels : List Label} {vals : List Nat} {edges : List Edge} (hn : labels.Nodup)
    (hv : vals.length = labels.length) (he : ∀ e ∈ edges, e.1 ∈ labels ∧ e.2 ∈ labels) : ClosedStructure (genStruct labels vals edges) :=
  ⟨⟨hn, by simp [genStruct], hv⟩, he⟩

theorem genGraph_spec {labels : List Label} {vals : List Nat} {edges : List Edge} (hn : labels.Nodup)
    (hv : vals.length = labels.length) (he : ∀ e ∈ edges, e.1 ∈ labels ∧ e.2 ∈ labels) :
    GInv (genGraph labels vals edges) ∧ (genGraph labels vals edges).graph.keys = labels ∧
    (∀ e, e ∈ (genGraph labels vals edges).graph.edges ↔ e ∈ edges) ∧
    ∀ l ∈ labels, ∃ info, (genGraph labels vals edges).getOrderedParents l = .ok info ∧
      info.parents = labels.filter (fun p => decide ((p, l) ∈ edges)) ∧
      info.vals.map Except.ok = info.parents.map (genStruct labels vals edges).getStatesNumber := by
  have hc := genStruct_closed hn hv he
  have hI := GInv.new hc
  obtain ⟨h1, h2, h3, h4, h5⟩ := fastInit_prepare hI
  refine ⟨h1, ?_, ?_, ?_⟩
  · have hrows := map_fst_rows (labels := labels) (idx := List.range labels.length) (vals := vals) (by simp) hv
    have hk : ((NetworkGraph.new (genStruct labels vals edges)).addNodes labels).graph.keys = labels := by
      unfold NetworkGraph.addNodes NetworkGraph.new genStruct
      dsimp only
      rw [foldl_setNode_keys]
      · rw [hrows]; simp [DiGraph.empty, keys]
      · rw [hrows]; exact hn
      · intro t _; simp [DiGraph.empty, keys]
    unfold genGraph NetworkGraph.addEdges
    dsimp only
    rw [addEdgesFrom_keys_of_closed, hk]
    rw [hk]; exact he
  · intro e
    have := h3 e
    simp only [NetworkGraph.new, DiGraph.empty, List.not_mem_nil, false_or] at this
    exact this
  · intro l hl
    obtain ⟨g', d, k1, -, -, k4, -, -, -, k8, k9⟩ := fastInit_spec hI (n := l) hl
    have hunf : (NetworkGraph.new (genStruct labels vals edges)).fastInit l =
        ((genGraph labels vals edges).getOrderedParents l >>= fun info => (genGraph labels vals edges).getStatesNumber l >>= fun ns =>
        (genGraph labels vals edges).getNodeIndx l >>= fun ni => Except.ok ⟨(genGraph labels vals edges).struct, (genGraph labels vals edges).graph, some ⟨info,
          buildTimeScalarIndexing ns info.vals, buildTransitionScalarIndexing ns info.vals,
          buildTimeColumnsFiltering ni info.indxs, buildTransitionFiltering ni info.indxs (genGraph labels vals edges).struct.total,
          buildPCombs info.vals⟩⟩) := rfl
    rw [hunf] at k1
    cases ho : (genGraph labels vals edges).getOrderedParents l with
    | error e => rw [ho] at k1; simp at k1
    | ok info =>
      rw [ho] at k1
      simp only [Except.bind_ok'] at k1
      cases hs : (genGraph labels vals edges).getStatesNumber l with
      | error e => rw [hs] at k1; simp at k1
      | ok c =>
        rw [hs] at k1
        simp only [Except.bind_ok'] at k1
        cases hi : (genGraph labels vals edges).getNodeIndx l with
        | error e => rw [hi] at k1; simp at k1
        | ok i =>
          rw [hi] at k1
          simp only [Except.bind_ok', Except.ok.injEq] at k1
          subst k1
          simp only [Option.some.injEq] at k4
          have hinfo : d.info = info := by rw [← k4]
          refine ⟨info, rfl, ?_, ?_⟩
          · rw [← hinfo, k8]
            simp [NetworkGraph.new, DiGraph.empty, genStruct]
          · rw [← hinfo]; exact k9.vals

theorem tableParents_edgesView {g : DiGraph} (hk : g.keys.Nodup) (he : g.edges.Nodup) (l : Label) :
    tableParents g.edgesView l = g.keys.filter (fun p => decide ((p, l) ∈ g.edges)) := by
  unfold tableParents edgesView
  unfold keys
  induction g.nodes with
  | nil => rfl
  | cons n ns ih =>
    rw [List.flatMap_cons, List.filter_append, List.map_append, ih, List.map_cons, List.filter_cons]
    have hp : ((g.edges.filter (fun e => e.1 == n.1)).filter (fun e => decide (e.2 = l))).map Prod.fst
        = if (n.1, l) ∈ g.edges then [n.1] else [] := by
      rw [List.filter_filter]
      have : g.edges.filter (fun e => decide (e.2 = l) && e.1 == n.1) = if (n.1, l) ∈ g.edges then [(n.1, l)] else [] := by
        have e1 : (fun e : Edge => decide (e.2 = l) && e.1 == n.1) = fun e => e == (n.1, l) := by
          funext e
          obtain ⟨a, b⟩ := e
          rw [Bool.eq_iff_iff]
          simp only [Bool.and_eq_true, decide_eq_true_eq, beq_iff_eq, Prod.mk.injEq]
          exact And.comm
        rw [e1, List.filter_beq]
        split
        · rename_i h; rw [List.count_eq_one_of_mem he h]; rfl
        · rename_i h; rw [List.count_eq_zero_of_not_mem h]; rfl
      rw [this]; split <;> rfl
    rw [hp]
    by_cases h : (n.1, l) ∈ g.edges
    · simp [h]
    · simp [h]

/-! ## Pairs -/

theorem mem_allPairs {labels : List Label} {a b : Label} : (a, b) ∈ allPairs labels ↔ a ∈ labels ∧ b ∈ labels ∧ a ≠ b := by
  unfold allPairs
  simp only [List.mem_flatMap, List.mem_map, List.mem_filter, decide_eq_true_eq, Prod.mk.injEq]
  constructor
  · rintro ⟨i, hi, j, ⟨hj, hij⟩, rfl, rfl⟩; exact ⟨hi, hj, hij⟩
  · rintro ⟨ha, hb, hab⟩; exact ⟨a, ha, b, ⟨hb, hab⟩, rfl, rfl⟩

theorem allPairs_nodup {labels : List Label} (h : labels.Nodup) : (allPairs labels).Nodup := by
  unfold allPairs
  rw [List.nodup_flatMap]
  refine ⟨fun i _ => (h.filter _).map (fun a b hab => (Prod.mk.inj hab).2), ?_⟩
  refine h.imp ?_
  intro a b hab
  rw [Function.onFun, List.disjoint_left]
  rintro ⟨x, y⟩ hx hy
  simp only [List.mem_map, Prod.mk.injEq] at hx hy
  obtain ⟨_, _, rfl, _⟩ := hx
  obtain ⟨_, _, rfl, _⟩ := hy
  exact hab rfl

theorem allPairs_length {labels : List Label} (h : labels.Nodup) : (allPairs labels).length = labels.length * (labels.length - 1) := by
  unfold allPairs
  rw [List.length_flatMap]
  have : labels.map (fun i => ((labels.filter (fun j => decide (i ≠ j))).map (fun j => (i, j))).length)
      = labels.map (fun _ => labels.length - 1) := by
    apply List.map_congr_left
    intro i hi
    rw [List.length_map]
    have : labels.filter (fun j => decide (i ≠ j)) = labels.erase i := by
      rw [h.erase_eq_filter]
      apply List.filter_congr
      intro x _
      rw [Bool.eq_iff_iff]
      simp only [decide_eq_true_eq, bne_iff_ne]
      exact ne_comm
    rw [this, List.length_erase_of_mem hi]
  rw [this]
  simp

/-! ## Rows -/

theorem sum_pick {c i : Nat} (hi : i < c) (f : Nat → ℚ) (x : ℚ) :
    ((List.range c).map (fun j => if j = i then x else f j)).sum = ((List.range c).map f).sum - f i + x := by
  induction c with
  | zero => omega
  | succ c ih =>
    rw [List.range_succ, List.map_append, List.map_append, List.sum_append, List.sum_append]
    simp only [List.map_cons, List.map_nil, List.sum_cons, List.sum_nil, add_zero]
    by_cases hic : i = c
    · subst hic
      rw [if_pos rfl]
      have : (List.range i).map (fun j => if j = i then x else f j) = (List.range i).map f := by
        apply List.map_congr_left
        intro j hj
        rw [if_neg (by have := List.mem_range.1 hj; omega)]
      rw [this]; ring
    · rw [ih (by omega), if_neg (by omega)]; ring

theorem sum_round4_near (c : Nat) (f : Nat → ℚ) :
    |((List.range c).map (fun j => round4 (f j))).sum - ((List.range c).map f).sum| ≤ c * (1 / 20000) := by
  induction c with
  | zero => simp
  | succ c ih =>
    rw [List.range_succ, List.map_append, List.map_append, List.sum_append, List.sum_append]
    simp only [List.map_cons, List.map_nil, List.sum_cons, List.sum_nil, add_zero]
    have h := round4_near (f c)
    rw [abs_le] at *
    push_cast
    constructor <;> linarith [h.1, h.2, ih.1, ih.2]

theorem sum_mul_right' (l : List Nat) (f : Nat → ℚ) (s d : ℚ) : (l.map (fun j => f j / s * d)).sum = (l.map f).sum / s * d := by
  induction l with
  | nil => simp
  | cons a l ih => simp only [List.map_cons, List.sum_cons, ih]; ring

theorem swap_prod (ps : List Nat) : (swapFirstTwo ps).prod = ps.prod := by
  match ps with
  | [] => rfl
  | [p] => rfl
  | p :: q :: rest => simp only [swapFirstTwo, List.prod_cons]; ring

theorem swap_length (ps : List Nat) : (swapFirstTwo ps).length = ps.length := by
  match ps with
  | [] => rfl
  | [p] => rfl
  | p :: q :: rest => rfl

theorem buildPCombs_length (ps : List Nat) : (buildPCombs ps).length = ps.prod := by
  rw [buildPCombs_closed, meshRest_closed, List.length_map, List.length_range, swap_prod]

theorem buildPCombs_width {ps u : List Nat} (h : u ∈ buildPCombs ps) : u.length = ps.length := by
  rw [buildPCombs_closed, meshRest_closed] at h
  obtain ⟨r, hr, rfl⟩ := List.mem_map.1 h
  have := (digits_inRange (List.mem_range.1 hr)).1.length_eq
  rw [this, swap_length]

end PyCTBN
