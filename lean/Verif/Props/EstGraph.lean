import Verif.Props.ScoreEst

/-!
# C61 to C63: what the estimator object reports after estimation

Both `estimate_structure` methods end with `_complete_graph` rebuilt from the estimated edges (`Estimator.update`); the order in
which Python iterates over the set of edges is arbitrary, so the list handed to `update` is any list with these elements.
-/

namespace PyCTBN
open Spec DiGraph

/-- The estimator after an `estimate_structure` that returned the edges `es`. -/
def After (e : Estimator) (es : Finset Edge) (e' : Estimator) : Prop := ∃ l : List Edge, l.toFinset = es ∧ e' = e.update l

theorem after_score_based {S : Type} [LinearOrder S] {score : Label → NetworkGraph → Py S} {R : List (List Bool)} {e e' : Estimator}
    {a : SBArgs} {order : Option (List Label)} {pick drop : Label → Nat → Nat} {es : Finset Edge} {rep : Option (ℚ × ℚ)}
    (h : estimateStructure score R e a order pick drop = (.ok (es, rep), e')) : After e es e' := by
  unfold estimateStructure at h
  simp only at h
  split at h
  · simp at h
  · simp only [Prod.mk.injEq, Except.ok.injEq] at h
    obtain ⟨⟨rfl, -⟩, rfl⟩ := h
    exact ⟨_, by ext x; simp, rfl⟩

theorem after_ctpc {E : CBEnv} {st : CBState} {e e' : Estimator} {order : Option (List Label)} {es : Finset Edge}
    (h : E.ctpcEstimate st e order = (.ok es, e')) : After e es e' := by
  unfold CBEnv.ctpcEstimate at h
  split at h
  · simp at h
  · simp only [Prod.mk.injEq, Except.ok.injEq] at h
    obtain ⟨rfl, rfl⟩ := h
    exact ⟨_, by ext x; simp, rfl⟩

theorem After.mem_edges {e e' : Estimator} {es : Finset Edge} (h : After e es e') (x : Edge) : x ∈ e'.complete.edges ↔ x ∈ es := by
  obtain ⟨l, rfl, rfl⟩ := h
  show x ∈ (DiGraph.empty.addEdgesFrom l).edges ↔ _
  rw [mem_addEdgesFrom, List.mem_toFinset]
  simp [DiGraph.empty]

theorem After.mem_keys {e e' : Estimator} {es : Finset Edge} (h : After e es e') (n : Label) :
    n ∈ e'.complete.keys ↔ ∃ x ∈ es, n = x.1 ∨ n = x.2 := by
  obtain ⟨l, rfl, rfl⟩ := h
  show n ∈ (DiGraph.empty.addEdgesFrom l).keys ↔ _
  rw [mem_addEdgesFrom_keys]
  simp [DiGraph.empty, DiGraph.keys]

/-! ## the complete graph -/

theorem mem_permutations2 {l : List Label} (h : l.Nodup) (a b : Label) : (a, b) ∈ permutations2 l ↔ a ∈ l ∧ b ∈ l ∧ a ≠ b := by
  unfold permutations2
  simp only [List.mem_flatMap, List.mem_map, List.mem_filter, decide_eq_true_eq, Prod.mk.injEq, Prod.exists]
  constructor
  · rintro ⟨x, i, hx, y, j, ⟨hy, hij⟩, rfl, rfl⟩
    rw [List.mem_zipIdx_iff_getElem?] at hx hy
    refine ⟨List.mem_of_getElem? hx, List.mem_of_getElem? hy, ?_⟩
    rintro rfl
    simp only at hx hy
    obtain ⟨hi, hxi⟩ := List.getElem?_eq_some_iff.1 hx
    obtain ⟨hj, hyj⟩ := List.getElem?_eq_some_iff.1 hy
    exact hij ((h.getElem_inj_iff).1 (hyj.trans hxi.symm))
  · rintro ⟨ha, hb, hab⟩
    obtain ⟨i, hi⟩ := List.mem_iff_getElem?.1 ha
    obtain ⟨j, hj⟩ := List.mem_iff_getElem?.1 hb
    refine ⟨a, i, List.mem_zipIdx_iff_getElem?.2 hi, b, j, ⟨List.mem_zipIdx_iff_getElem?.2 hj, ?_⟩, rfl, rfl⟩
    rintro rfl
    rw [hi] at hj
    exact hab (Option.some.inj hj)

theorem mem_foldl_touch {l : List Label} {g : DiGraph} {n : Label} : n ∈ (l.foldl DiGraph.touch g).keys ↔ n ∈ g.keys ∨ n ∈ l := by
  induction l generalizing g with
  | nil => simp
  | cons x l ih => rw [List.foldl_cons, ih, mem_touch_keys, List.mem_cons, or_assoc]

theorem foldl_touch_edges {l : List Label} {g : DiGraph} : (l.foldl DiGraph.touch g).edges = g.edges := by
  induction l generalizing g with
  | nil => rfl
  | cons x l ih => rw [List.foldl_cons, ih, touch_edges]

theorem foldl_touch_nodup {l : List Label} {g : DiGraph} (h : g.keys.Nodup) : (l.foldl DiGraph.touch g).keys.Nodup := by
  induction l generalizing g with
  | nil => exact h
  | cons x l ih => exact ih (touch_nodup h)

theorem mem_edgesView {g : DiGraph} (h : ∀ x ∈ g.edges, x.1 ∈ g.keys) (x : Edge) : x ∈ g.edgesView ↔ x ∈ g.edges := by
  unfold edgesView
  simp only [List.mem_flatMap, List.mem_filter, beq_iff_eq]
  constructor
  · rintro ⟨_, _, hx, _⟩; exact hx
  · intro hx
    obtain ⟨p, hp, e⟩ := List.mem_map.1 (h x hx)
    exact ⟨p, hp, hx, e.symm⟩

theorem edgesView_nodup {g : DiGraph} (hk : g.keys.Nodup) (h : g.edges.Nodup) : g.edgesView.Nodup := by
  unfold edgesView
  rw [List.nodup_flatMap]
  refine ⟨fun p _ => h.filter _, ?_⟩
  have : g.nodes.Pairwise (fun a b => a.1 ≠ b.1) := by
    have := hk
    unfold keys at this
    rw [List.Nodup, List.pairwise_map] at this
    exact this
  refine this.imp ?_
  intro a b hab
  rw [Function.onFun, List.disjoint_left]
  intro x hx hy
  rw [List.mem_filter, beq_iff_eq] at hx hy
  exact hab (hx.2.symm.trans hy.2)

/-- A built graph contains exactly the given edges, its nodes are the given labels and the end points, and nothing is listed twice. -/
theorem built_graph (ls : List Label) (es : List Edge) :
    let g := (ls.foldl DiGraph.touch DiGraph.empty).addEdgesFrom es
    (∀ x, x ∈ g.edges ↔ x ∈ es) ∧ (∀ n, n ∈ g.keys ↔ n ∈ ls ∨ ∃ x ∈ es, n = x.1 ∨ n = x.2) ∧ g.keys.Nodup ∧ g.edges.Nodup ∧
      (∀ x, x ∈ g.edgesView ↔ x ∈ es) ∧ g.edgesView.Nodup := by
  intro g
  have h1 : ∀ x, x ∈ g.edges ↔ x ∈ es := by
    intro x
    show x ∈ ((ls.foldl DiGraph.touch DiGraph.empty).addEdgesFrom es).edges ↔ _
    rw [mem_addEdgesFrom, foldl_touch_edges]; simp [DiGraph.empty]
  have h2 : ∀ n, n ∈ g.keys ↔ n ∈ ls ∨ ∃ x ∈ es, n = x.1 ∨ n = x.2 := by
    intro n
    show n ∈ ((ls.foldl DiGraph.touch DiGraph.empty).addEdgesFrom es).keys ↔ _
    rw [mem_addEdgesFrom_keys, mem_foldl_touch]
    simp [DiGraph.empty, DiGraph.keys]
  have h3 : g.keys.Nodup := addEdgesFrom_keys_nodup (foldl_touch_nodup (by simp [DiGraph.empty, DiGraph.keys]))
  have h4 : g.edges.Nodup := addEdgesFrom_nodup (by rw [foldl_touch_edges]; simp [DiGraph.empty])
  refine ⟨h1, h2, h3, h4, fun x => ?_, edgesView_nodup h3 h4⟩
  rw [mem_edgesView _ x, h1]
  intro y hy
  exact (h2 _).2 (Or.inr ⟨y, (h1 y).1 hy, Or.inl rfl⟩)

/-! ## C61 -/

/-- C61 (the claim fails).  After any estimation, whatever was estimated and whatever the true structure was, `spurious_edges()`
returns the empty list. -/
theorem spurious_edges_empty_after {e e' : Estimator} {es : Finset Edge} (h : After e es e') : e'.spuriousEdges = .ok [] := by
  obtain ⟨l, rfl, rfl⟩ := h
  unfold Estimator.spuriousEdges Estimator.hasPrior Estimator.update Structure.cleanEdges
  simp

/-- C61 (counterexample).  A structure with the true edge X→Y; estimation returns the wrong edge Y→X; nothing is reported. -/
theorem spurious_edges_missed :
    let e := Estimator.new ⟨["X", "Y"], [0, 1], [2, 2], [("X", "Y")], 2⟩
    ∃ e', After e {("Y", "X")} e' ∧ ("Y", "X") ∉ e.struct.edges ∧ e'.spuriousEdges = .ok [] := by
  refine ⟨_, ⟨[("Y", "X")], by decide, rfl⟩, by decide, by decide⟩

/-- C61 (before estimation).  On a new estimator `spurious_edges()` lists the self-loops of the true structure. -/
theorem spurious_edges_fresh {s : Structure} (hn : s.labels.Nodup) (hc : ∀ x ∈ s.edges, x.1 ∈ s.labels ∧ x.2 ∈ s.labels) :
    ∃ l, (Estimator.new s).spuriousEdges = .ok l ∧ ∀ x, x ∈ l ↔ x ∈ s.edges ∧ x.1 = x.2 := by
  unfold Estimator.spuriousEdges
  by_cases hp : (Estimator.new s).hasPrior = true
  · rw [if_neg (by simpa using hp)]
    obtain ⟨a1, a2, -, -, a5, -⟩ := built_graph s.labels s.edges
    obtain ⟨b1, b2, -⟩ := built_graph s.labels (permutations2 s.labels)
    dsimp only
    rw [if_neg]
    · refine ⟨_, rfl, fun x => ?_⟩
      rw [List.mem_filter, decide_eq_true_eq]
      show x ∈ edgesView ((s.labels.foldl DiGraph.touch DiGraph.empty).addEdgesFrom s.edges) ∧
        x ∉ ((s.labels.foldl DiGraph.touch DiGraph.empty).addEdgesFrom (permutations2 s.labels)).edges ↔ _
      rw [a5, b1]
      obtain ⟨p, q⟩ := x
      rw [mem_permutations2 hn]
      constructor
      · rintro ⟨h1, h2⟩
        refine ⟨h1, ?_⟩
        by_contra hne
        exact h2 ⟨(hc _ h1).1, (hc _ h1).2, hne⟩
      · rintro ⟨h1, h2⟩; exact ⟨h1, fun h => h.2.2 h2⟩
    · rw [not_not]
      ext n
      rw [List.mem_toFinset, List.mem_toFinset]
      show n ∈ ((s.labels.foldl DiGraph.touch DiGraph.empty).addEdgesFrom s.edges).keys ↔
        n ∈ ((s.labels.foldl DiGraph.touch DiGraph.empty).addEdgesFrom (permutations2 s.labels)).keys
      rw [a2, b2]
      have k1 : (∃ x ∈ s.edges, n = x.1 ∨ n = x.2) → n ∈ s.labels := by
        rintro ⟨x, hx, rfl | rfl⟩
        · exact (hc x hx).1
        · exact (hc x hx).2
      have k2 : (∃ x ∈ permutations2 s.labels, n = x.1 ∨ n = x.2) → n ∈ s.labels := by
        rintro ⟨⟨p, q⟩, hx, rfl | rfl⟩
        · exact ((mem_permutations2 hn _ _).1 hx).1
        · exact ((mem_permutations2 hn _ _).1 hx).2.1
      constructor
      · rintro (h | h); exacts [Or.inl h, Or.inl (k1 h)]
      · rintro (h | h); exacts [Or.inl h, Or.inl (k2 h)]
  · rw [if_pos hp]
    refine ⟨[], rfl, fun x => ?_⟩
    have : s.edges = [] := by
      by_contra hne
      exact hp (by simp [Estimator.hasPrior, Estimator.new, hne])
    simp [this]

/-! ## C62 -/

/-- C62 (after estimation).  `adjacency_matrix()[i][j]` is true iff the edge from the i-th to the j-th variable was estimated. -/
theorem adjacency_matrix_exact {e e' : Estimator} {es : Finset Edge} (h : After e es e') {nodes : List Label} (hne : nodes ≠ [])
    (hnd : nodes.Nodup) : ∃ m, e'.adjacencyMatrix nodes = .ok m ∧ m.length = nodes.length ∧
      (∀ r ∈ m, r.length = nodes.length) ∧
      ∀ (i j : Nat) a b, nodes[i]? = some a → nodes[j]? = some b → ((m[i]?).bind (·[j]?) = some true ↔ (a, b) ∈ es) ∧
        ((m[i]?).bind (·[j]?) = some false ↔ (a, b) ∉ es) := by
  unfold Estimator.adjacencyMatrix
  rw [if_neg hne, if_neg (by simpa using hnd)]
  refine ⟨_, rfl, by simp, ?_, fun i j a b ha hb => ?_⟩
  · intro r hr
    obtain ⟨_, _, rfl⟩ := List.mem_map.1 hr
    simp
  · simp only [List.getElem?_map, ha, hb, Option.map_some, Option.bind_some, Option.some.injEq, decide_eq_true_eq,
      decide_eq_false_iff_not, h.mem_edges]
    exact ⟨trivial, trivial⟩

/-- C62 (before estimation).  The matrix of a new estimator is the complete graph without self-loops. -/
theorem adjacency_matrix_fresh {s : Structure} (hne : s.labels ≠ []) (hnd : s.labels.Nodup) :
    ∃ m, (Estimator.new s).adjacencyMatrix s.labels = .ok m ∧
      ∀ i j, i < s.labels.length → j < s.labels.length → (m[i]?).bind (·[j]?) = some (decide (i ≠ j)) := by
  unfold Estimator.adjacencyMatrix
  rw [if_neg hne, if_neg (by simpa using hnd)]
  refine ⟨_, rfl, fun i j hi hj => ?_⟩
  simp only [List.getElem?_map, List.getElem?_eq_getElem hi, List.getElem?_eq_getElem hj, Option.map_some, Option.bind_some,
    Option.some.injEq, decide_eq_decide]
  obtain ⟨b1, -⟩ := built_graph s.labels (permutations2 s.labels)
  show (s.labels[i], s.labels[j]) ∈ ((s.labels.foldl DiGraph.touch DiGraph.empty).addEdgesFrom (permutations2 s.labels)).edges ↔ _
  rw [b1, mem_permutations2 hnd, ne_eq, hnd.getElem_inj_iff]
  simp

/-! ## C63 -/

/-- C63 (partial).  The saved links are exactly the estimated edges, each once; the saved nodes are, each once, the end points of
estimated edges.  Missing: a variable with no estimated edge is not listed (`saved_results_lose_isolated`). -/
theorem saved_results_partial {e e' : Estimator} {es : Finset Edge} (h : After e es e') :
    e'.savedResults.2.Nodup ∧ (∀ x, x ∈ e'.savedResults.2 ↔ x ∈ es) ∧
    e'.savedResults.1.Nodup ∧ (∀ n, n ∈ e'.savedResults.1 ↔ ∃ x ∈ es, n = x.1 ∨ n = x.2) := by
  obtain ⟨l, rfl, rfl⟩ := h
  obtain ⟨a1, a2, a3, a4, a5, a6⟩ := built_graph [] l
  refine ⟨a6, fun x => ?_, a3, fun n => ?_⟩
  · rw [List.mem_toFinset]; exact a5 x
  · have := a2 n
    simp only [List.not_mem_nil, false_or] at this
    simp only [List.mem_toFinset]
    exact this

/-- C63 (exactly when it fails).  The saved results list all variables iff every variable is the end point of an estimated edge. -/
theorem saved_results_complete_iff {e e' : Estimator} {es : Finset Edge} (h : After e es e') :
    (∀ n ∈ e.struct.labels, n ∈ e'.savedResults.1) ↔ ∀ n ∈ e.struct.labels, ∃ x ∈ es, n = x.1 ∨ n = x.2 := by
  constructor
  · intro hh n hn; exact ((saved_results_partial h).2.2.2 n).1 (hh n hn)
  · intro hh n hn; exact ((saved_results_partial h).2.2.2 n).2 (hh n hn)

/-- C63 (counterexample). -/
theorem saved_results_lose_isolated :
    let e := Estimator.new ⟨["X", "Y", "Z"], [0, 1, 2], [2, 2, 2], [], 3⟩
    ∃ e', After e {("Y", "X")} e' ∧ "Z" ∈ e.struct.labels ∧ "Z" ∉ e'.savedResults.1 :=
  ⟨_, ⟨[("Y", "X")], by decide, rfl⟩, by decide, by decide⟩

end PyCTBN
