import Verif.Spec.Search
import Verif.Lemmas.Direct
import Verif.Lemmas.CtpcRun

namespace PyCTBN
open Spec

theorem Stalled.single {S : Type} [LinearOrder S] (s : S) : Stalled [s] 0 := ⟨[], s, [], by simp⟩

/-- The graph of a search: reachable, edges exactly from `u` into `n`. -/
structure SGraph (s : Structure) (n : Label) (u : List Label) (g : NetworkGraph) : Prop where
  reach : Reach s g
  mem : ∀ e, e ∈ g.graph.edges ↔ e.2 = n ∧ e.1 ∈ u

namespace SGraph
variable {s : Structure} {n : Label} {u : List Label} {g : NetworkGraph}

theorem sub (h : SGraph s n u g) : ∀ p ∈ u, p ∈ s.labels := by
  intro p hp
  obtain ⟨hI, hs⟩ := h.reach.inv
  have := (hI.edgesClosed (p, n) ((h.mem _).2 ⟨rfl, hp⟩)).1
  rwa [hs] at this

theorem add (h : SGraph s n u g) (hn : n ∈ s.labels) {p : Label} (hp : p ∈ s.labels) {u' : List Label}
    (hu : ∀ x, x ∈ u' ↔ x ∈ u ∨ x = p) : SGraph s n u' (g.addEdges [(p, n)]) := by
  refine ⟨Reach.addEdges _ h.reach (by simp [hp, hn]), fun e => ?_⟩
  have hm : e ∈ (g.addEdges [(p, n)]).graph.edges ↔ e ∈ g.graph.edges ∨ e ∈ [(p, n)] := DiGraph.mem_addEdgesFrom
  obtain ⟨e1, e2⟩ := e
  rw [hm, h.mem, hu]
  simp only [List.mem_singleton, Prod.mk.injEq]
  constructor
  · rintro (⟨h1, h2⟩ | ⟨h1, h2⟩)
    · exact ⟨h1, Or.inl h2⟩
    · exact ⟨h2, Or.inr h1⟩
  · rintro ⟨h1, h2 | h2⟩
    · exact Or.inl ⟨h1, h2⟩
    · exact Or.inr ⟨h2, h1⟩

theorem remove (h : SGraph s n u g) {p : Label} {u' : List Label} (hu : ∀ x, x ∈ u' ↔ x ∈ u ∧ x ≠ p) :
    SGraph s n u' (g.removeEdges [(p, n)]) := by
  refine ⟨Reach.removeEdges _ h.reach, fun e => ?_⟩
  obtain ⟨hI, _⟩ := h.reach.inv
  have hm : e ∈ (g.removeEdges [(p, n)]).graph.edges ↔ e ∈ g.graph.edges ∧ e ∉ [(p, n)] :=
    DiGraph.mem_removeEdgesFrom hI.edgesNodup
  obtain ⟨e1, e2⟩ := e
  rw [hm, h.mem, hu]
  simp only [List.mem_singleton, Prod.mk.injEq]
  constructor
  · rintro ⟨⟨h1, h2⟩, h3⟩; exact ⟨h1, h2, fun h => h3 ⟨h, h1⟩⟩
  · rintro ⟨h1, h2, h3⟩; exact ⟨⟨h1, h2⟩, fun h => h3 h.1⟩

theorem congr (h : SGraph s n u g) {u' : List Label} (hu : ∀ x, x ∈ u' ↔ x ∈ u) : SGraph s n u' g :=
  ⟨h.reach, fun e => by rw [h.mem, hu]⟩

theorem hasEdge (h : SGraph s n u g) (p : Label) : g.hasEdge (p, n) = decide (p ∈ u) := by
  unfold NetworkGraph.hasEdge DiGraph.hasEdge
  rw [decide_eq_decide, h.mem]; simp

/-- `fast_init` neither fails nor changes the edges when the structure has none. -/
theorem fastInit (h : SGraph s n u g) (hn : n ∈ s.labels) (he : s.edges = []) :
    ∃ g', g.fastInit n = .ok g' ∧ SGraph s n u g' ∧ n ∈ g'.graph.keys := by
  obtain ⟨hI, hs⟩ := h.reach.inv
  obtain ⟨g', d, k1, k2, k3, k4, k5, k6, -⟩ := fastInit_spec hI (n := n) (by rw [hs]; exact hn)
  refine ⟨g', k1, ⟨Reach.fastInit n h.reach hn k1, fun e => ?_⟩, (k6 n).2 (by rw [hs]; exact hn)⟩
  rw [k5, hs, he, h.mem]; simp

theorem edges_mem (h : SGraph s n u g) (e : Edge) : e ∈ g.edges ↔ e.2 = n ∧ e.1 ∈ u := by
  obtain ⟨hI, _⟩ := h.reach.inv
  unfold NetworkGraph.edges
  rw [CBEnv.mem_edgesView (fun e he => (hI.endpoints e he).1), h.mem]

theorem edges_nodup (h : SGraph s n u g) : g.edges.Nodup := by
  obtain ⟨hI, _⟩ := h.reach.inv
  exact CBEnv.edgesView_nodup hI.keysNodup hI.edgesNodup

theorem parentsIn_eq (h : SGraph s n u g) : parentsIn g.edges n = u.toFinset := by
  ext p
  simp only [parentsIn, List.mem_toFinset, List.mem_map, List.mem_filter, decide_eq_true_eq]
  constructor
  · rintro ⟨e, ⟨h1, _⟩, rfl⟩; exact ((h.edges_mem e).1 h1).2
  · intro hp; exact ⟨(p, n), ⟨(h.edges_mem _).2 ⟨rfl, hp⟩, rfl⟩, rfl⟩

/-- The parents listed by the graph, in some order. -/
theorem parents (h : SGraph s n u g) (hu : u.Nodup) (hk : n ∈ g.graph.keys) :
    ∃ ps, g.getParentsById n = .ok ps ∧ ps.Perm u := by
  obtain ⟨hI, _⟩ := h.reach.inv
  refine ⟨_, by unfold NetworkGraph.getParentsById DiGraph.predecessors; rw [if_pos (DiGraph.hasNode_iff.2 hk)], ?_⟩
  rw [List.perm_ext_iff_of_nodup _ hu]
  · intro p
    simp only [List.mem_map, List.mem_filter, beq_iff_eq]
    constructor
    · rintro ⟨e, ⟨h1, _⟩, rfl⟩; exact ((h.mem e).1 h1).2
    · intro hp; exact ⟨(p, n), ⟨(h.mem _).2 ⟨rfl, hp⟩, rfl⟩, rfl⟩
  · refine List.Nodup.map_on ?_ (hI.edgesNodup.filter _)
    rintro ⟨a1, a2⟩ ha ⟨b1, b2⟩ hb hab
    simp only [List.mem_filter, beq_iff_eq] at ha hb
    simp only at hab
    rw [hab, ha.2, hb.2]

end SGraph

theorem choice_mem {l : List Label} {r : Nat} {x : Label} (h : choice l r = .ok x) : x ∈ l := by
  unfold choice at h
  split at h
  · simp at h
  · rw [pyGet_ok] at h; exact List.mem_of_getElem? h

theorem choice_ok {l : List Label} (h : l ≠ []) (r : Nat) : ∃ x ∈ l, choice l r = .ok x := by
  unfold choice
  rw [if_neg h]
  have : r % l.length < l.length := Nat.mod_lt _ (List.length_pos_iff.2 h)
  exact ⟨l[r % l.length], List.getElem_mem _, by rw [pyGet_ok, List.getElem?_eq_getElem this]⟩

/-- Every element is obtained for some number. -/
theorem choice_surj {l : List Label} {x : Label} (h : x ∈ l) : ∃ r, choice l r = .ok x := by
  obtain ⟨i, hi, rfl⟩ := List.getElem_of_mem h
  refine ⟨i, ?_⟩
  unfold choice
  rw [if_neg (by rintro rfl; simp at hi), Nat.mod_eq_of_lt hi, pyGet_ok, List.getElem?_eq_getElem hi]

namespace SearchEnv
variable {S : Type} [LinearOrder S] {E : SearchEnv S} {n : Label} {mp : Option ℤ}

/-- The proposal for candidate `p` from parents `u`: the new parents and the dropped one. -/
inductive Proposal (mp : Option ℤ) (u : List Label) (p : Label) : List Label → Option Label → Prop
  | remove : p ∈ u → Proposal mp u p (u.erase p) none
  | add : p ∉ u → (∀ k, mp = some k → (u.length : ℤ) < k) → Proposal mp u p (p :: u) none
  | swap (q : Label) (k : ℤ) : p ∉ u → mp = some k → k ≤ u.length → q ∈ u → Proposal mp u p (p :: u.erase q) (some q)

theorem Proposal.nodup {u u' : List Label} {p : Label} {d : Option Label} (h : Proposal mp u p u' d) (hu : u.Nodup) : u'.Nodup := by
  cases h with
  | remove _ => exact hu.erase p
  | add h _ => exact List.nodup_cons.2 ⟨h, hu⟩
  | swap q k h1 _ _ _ => exact List.nodup_cons.2 ⟨fun h => h1 (List.erase_subset h), hu.erase q⟩

theorem propose_spec {g : NetworkGraph} {u : List Label} (hg : SGraph E.struct n u g) (hu : u.Nodup) (hk : n ∈ g.graph.keys)
    (hn : n ∈ E.struct.labels) {p : Label} (hp : p ∈ E.struct.labels) {r : Nat} {out : NetworkGraph × Bool × Option Label}
    (h : propose n mp g p r = .ok out) :
    ∃ u', Proposal mp u p u' out.2.2 ∧ SGraph E.struct n u' out.1 ∧ (out.2.1 = decide (p ∉ u)) := by
  unfold propose at h
  rw [hg.hasEdge] at h
  by_cases hpu : p ∈ u
  · simp only [hpu, decide_true, if_true, Except.ok.injEq] at h
    subst h
    exact ⟨u.erase p, .remove hpu, hg.remove (fun x => by rw [hu.mem_erase_iff]; tauto), by simp [hpu]⟩
  · simp only [hpu, decide_false, Bool.false_eq_true, if_false] at h
    cases mp with
    | none =>
      simp only [Except.bind_ok'] at h
      simp only [pure, Except.pure, Except.ok.injEq] at h
      subst h
      exact ⟨p :: u, .add hpu (by simp), hg.add hn hp (fun x => by rw [List.mem_cons]; tauto), by simp [hpu]⟩
    | some k =>
      obtain ⟨ps, h1, h2⟩ := hg.parents hu hk
      simp only [h1, Except.bind_ok'] at h
      rw [h2.length_eq] at h
      by_cases hk2 : k ≤ u.length
      · simp only [hk2, if_true] at h
        cases hc : choice ps r with
        | error e => rw [hc] at h; simp at h
        | ok q =>
          rw [hc] at h
          simp only [Except.bind_ok', pure, Except.pure, Except.ok.injEq] at h
          subst h
          have hq := h2.mem_iff.1 (choice_mem hc)
          refine ⟨p :: u.erase q, .swap q k hpu rfl hk2 hq, ?_, by simp [hpu]⟩
          have := hg.remove (p := q) (u' := u.erase q) (fun x => by rw [hu.mem_erase_iff]; tauto)
          exact this.add hn hp (fun x => by rw [List.mem_cons]; tauto)
      · simp only [hk2, if_false, Except.bind_ok', pure, Except.pure, Except.ok.injEq] at h
        subst h
        exact ⟨p :: u, .add hpu (fun k' e => by cases e; omega), hg.add hn hp (fun x => by rw [List.mem_cons]; tauto), by simp [hpu]⟩

theorem undo_spec {g : NetworkGraph} {u u' : List Label} (hu : u.Nodup) (hsub : ∀ x ∈ u, x ∈ E.struct.labels)
    (hn : n ∈ E.struct.labels) {p : Label} {d : Option Label}
    (hP : Proposal mp u p u' d) (hg : SGraph E.struct n u' g) : SGraph E.struct n u (undo n g p (decide (p ∉ u)) d) := by
  unfold undo
  cases hP with
  | remove h =>
    simp only [h, not_true, decide_false, Bool.false_eq_true, if_false]
    exact hg.add hn (hsub p h) (fun x => by
      rw [hu.mem_erase_iff]
      by_cases hx : x = p
      · subst hx; simp [h]
      · simp [hx])
  | add h _ =>
    simp only [h, not_false_eq_true, decide_true, if_true]
    exact hg.remove (fun x => by
      rw [List.mem_cons]
      by_cases hx : x = p
      · subst hx; simp [h]
      · simp [hx])
  | swap q k h1 _ _ hq =>
    simp only [h1, not_false_eq_true, decide_true, if_true]
    have := hg.remove (p := p) (u' := u.erase q) (fun x => by
      rw [List.mem_cons, hu.mem_erase_iff]
      by_cases hx : x = p
      · subst hx; simp [h1]
      · simp [hx])
    exact this.add hn (hsub q hq) (fun x => by
      rw [hu.mem_erase_iff]
      by_cases hx : x = q
      · subst hx; simp [hq]
      · simp [hx])

theorem scoreGraph_spec {g : NetworkGraph} {u : List Label} (hE : SearchReady E) (hg : SGraph E.struct n u g)
    (hn : n ∈ E.struct.labels) {out : S × NetworkGraph} (h : E.scoreGraph n g = .ok out) :
    SGraph E.struct n u out.2 ∧ n ∈ out.2.graph.keys ∧ ∀ f, ScoreOf E n f → f u.toFinset = .ok out.1 := by
  obtain ⟨g', h1, h2, h3⟩ := hg.fastInit hn hE.noEdges
  unfold scoreGraph at h
  rw [h1] at h
  simp only [Except.bind_ok'] at h
  cases hs : E.score n g' with
  | error e => rw [hs] at h; simp at h
  | ok s =>
    rw [hs] at h
    simp only [Except.bind_ok', pure, Except.pure, Except.ok.injEq] at h
    subst h
    refine ⟨h2, h3, fun f hf => ?_⟩
    have := hf g g' hg.reach h1
    rw [hs, h2.parentsIn_eq] at this
    exact this.symm

/-- One move: what was evaluated and what is kept. -/
theorem tryMove_spec {g : NetworkGraph} {u : List Label} (hE : SearchReady E) (hg : SGraph E.struct n u g) (hu : u.Nodup)
    (hk : n ∈ g.graph.keys) (hn : n ∈ E.struct.labels) {p : Label} (hp : p ∈ E.struct.labels) {best : S} {r : Nat}
    {out : NetworkGraph × Bool × S} (h : E.tryMove n mp g best p r = .ok out) :
    ∃ u' d, Proposal mp u p u' d ∧ out.2.1 = decide (best < out.2.2) ∧
      SGraph E.struct n (if out.2.1 then u' else u) out.1 ∧ n ∈ out.1.graph.keys ∧
      ∀ f, ScoreOf E n f → f u'.toFinset = .ok out.2.2 := by
  unfold tryMove at h
  cases hpr : propose n mp g p r with
  | error e => rw [hpr] at h; simp at h
  | ok o =>
    obtain ⟨g1, added, removed⟩ := o
    rw [hpr] at h
    simp only [Except.bind_ok'] at h
    obtain ⟨u', hP, hg1, hadd⟩ := propose_spec hg hu hk hn hp hpr
    simp only at hP hg1 hadd
    cases hsc : E.scoreGraph n g1 with
    | error e => rw [hsc] at h; simp at h
    | ok o2 =>
      obtain ⟨s, g2⟩ := o2
      rw [hsc] at h
      simp only [Except.bind_ok'] at h
      obtain ⟨k1, k2, k3⟩ := scoreGraph_spec hE hg1 hn hsc
      by_cases hb : best < s
      · simp only [hb, if_true, pure, Except.pure, Except.ok.injEq] at h
        subst h
        exact ⟨u', removed, hP, by simp [hb], k1, k2, k3⟩
      · simp only [hb, if_false, pure, Except.pure, Except.ok.injEq] at h
        subst h
        refine ⟨u', removed, hP, by simp [hb], ?_, ?_, k3⟩
        · simp only [Bool.false_eq_true, if_false]
          rw [hadd]; exact undo_spec hu hg.sub hn hP k1
        · simp only [undo]
          split
          · split
            · exact DiGraph.mem_addEdgesFrom_keys.2 (Or.inl k2)
            · exact k2
          · exact DiGraph.mem_addEdgesFrom_keys.2 (Or.inl k2)

end SearchEnv
end PyCTBN
