import Verif.Lemmas.TabuLoop

/-!
# C46 to C56: hill climbing and tabu search

The theorems hold for every score function with values in a linear order, all random draws (`pick`, `drop`) and all
parameters.  The score function is an argument here; C59 shows that the FamScore meets `ScoreOf`.
-/

namespace PyCTBN
open Spec SearchEnv

variable {S : Type} [LinearOrder S] {E : SearchEnv S} {n : Label} {known : List Edge} {mp : Option ℤ} {patience : Option ℤ}
  {iterations : Nat} {pick drop : Nat → Nat} {es : List Edge} {log : List S}

theorem hill_run (hE : SearchReady E) (hK : KnownEdges E known) (h : E.hill n mp iterations patience pick drop = .ok (es, log)) :
    n ∈ E.struct.labels ∧ ∃ prior s0 g0, prior.Nodup ∧ (∀ p, p ∈ prior ↔ (p, n) ∈ known) ∧
      SInv E n mp prior g0 s0 0 [s0] prior ∧
      ∃ g, E.hillLoop n (E.otherNodes n prior) mp patience pick drop iterations 0 g0 s0 0 [s0] = .ok (g, log) ∧ es = g.edges := by
  unfold hill at h
  cases hj : E.struct.getNodeIndx n with
  | error e => rw [hj] at h; simp at h
  | ok j =>
    rw [hj] at h
    simp only [Except.bind_ok'] at h
    have hn : n ∈ E.struct.labels := List.mem_of_getElem? ((getNodeIndx_range hE.wf hK.indexed n j).1 hj)
    obtain ⟨prior, h1, h2, h3⟩ := priorParents_spec hE hK hj
    rw [h1] at h
    simp only [Except.bind_ok'] at h
    cases hs : E.scoreGraph n (E.initGraph n prior) with
    | error e => rw [hs] at h; simp at h
    | ok o =>
      obtain ⟨s0, g0⟩ := o
      rw [hs] at h
      simp only [Except.bind_ok'] at h
      have hbuilt := (removable_matrix_built_iff E.struct.labels.length known).1 ⟨_, hK.built⟩
      have hsub : ∀ p ∈ prior, p ∈ E.struct.labels := by
        intro p hp
        obtain ⟨i, _, k1, _, _, _⟩ := hbuilt _ ((h3 p).1 hp)
        exact List.mem_of_getElem? ((getNodeIndx_range hE.wf hK.indexed _ _).1 k1)
      have hloop : n ∉ prior := fun hc => hK.noLoop _ ((h3 n).1 hc) rfl
      refine ⟨hn, prior, s0, g0, h2, h3, SInv.init hE hn hsub h2 hloop hs, ?_⟩
      cases hh : E.hillLoop n (E.otherNodes n prior) mp patience pick drop iterations 0 g0 s0 0 [s0] with
      | error e => rw [hh] at h; simp at h
      | ok o2 =>
        obtain ⟨g, log'⟩ := o2
        rw [hh] at h
        simp only [Except.bind_ok', pure, Except.pure, Except.ok.injEq, Prod.mk.injEq] at h
        obtain ⟨rfl, rfl⟩ := h
        exact ⟨g, rfl, rfl⟩

theorem parentsIn_known {prior : List Label} (h : ∀ p, p ∈ prior ↔ (p, n) ∈ known) : parentsIn known n = prior.toFinset := by
  ext p
  simp only [parentsIn, List.mem_toFinset, List.mem_map, List.mem_filter, decide_eq_true_eq, h]
  constructor
  · rintro ⟨⟨a, b⟩, ⟨h1, h2⟩, h3⟩; simp only at h2 h3; rw [← h2, ← h3]; exact h1
  · intro hp; exact ⟨_, ⟨hp, rfl⟩, rfl⟩

theorem SInv.edges_length {prior : List Label} {g : NetworkGraph} {best : S} {count : Nat} {log : List S} {u : List Label}
    (h : SInv E n mp prior g best count log u) : g.edges.length = u.length := by
  have h1 : (parentsIn g.edges n).card = u.length := by rw [h.graph.parentsIn_eq, List.toFinset_card_of_nodup h.nodup]
  have h2 : g.edges.Perm (u.map (fun p => (p, n))) := by
    rw [List.perm_ext_iff_of_nodup h.graph.edges_nodup (List.Nodup.map (fun a b hab => (Prod.mk.inj hab).1) h.nodup)]
    intro e
    rw [h.graph.edges_mem, List.mem_map]
    constructor
    · rintro ⟨h1, h2⟩; exact ⟨e.1, h2, by rw [← h1]⟩
    · rintro ⟨p, hp, rfl⟩; exact ⟨rfl, hp⟩
  rw [h2.length_eq, List.length_map]

/-- C46.  Hill climbing on `n` returns edges into `n` only, each once, from variables other than `n`. -/
theorem hill_edges_into_node (hE : SearchReady E) (hK : KnownEdges E known)
    (h : E.hill n mp iterations patience pick drop = .ok (es, log)) :
    es.Nodup ∧ ∀ e ∈ es, e.2 = n ∧ e.1 ∈ E.struct.labels ∧ e.1 ≠ n := by
  obtain ⟨hn, prior, s0, g0, h1, h2, h3, g, h4, rfl⟩ := hill_run hE hK h
  obtain ⟨-, best, count, u, hI⟩ := hillLoop_inv hE hn (fun p hp => mem_otherNodes.1 hp) _ _ _ _ _ _ _ h3 h4
  refine ⟨hI.graph.edges_nodup, fun e he => ?_⟩
  obtain ⟨k1, k2⟩ := (hI.graph.edges_mem e).1 he
  exact ⟨k1, hI.graph.sub _ k2, fun hc => hI.loop (hc ▸ k2)⟩

/-- C47.  Hill climbing returns at most `max(max_parents, number of known parents)` edges. -/
theorem hill_max_parents {k : ℤ} (hE : SearchReady E) (hK : KnownEdges E known)
    (h : E.hill n (some k) iterations patience pick drop = .ok (es, log)) :
    (es.length : ℤ) ≤ max k (parentsIn known n).card := by
  obtain ⟨hn, prior, s0, g0, h1, h2, h3, g, h4, rfl⟩ := hill_run hE hK h
  obtain ⟨-, best, count, u, hI⟩ := hillLoop_inv hE hn (fun p hp => mem_otherNodes.1 hp) _ _ _ _ _ _ _ h3 h4
  rw [parentsIn_known h2, List.toFinset_card_of_nodup h1, SInv.edges_length hI]
  exact hI.bound k rfl

/-- C48 (partial).  The known edges into `n` survive hill climbing if `max_parents` is not set or at least the number of other
variables.  What is missing is every smaller `max_parents`, for which the claim can fail (`hill_drops_known_edge`). -/
theorem hill_keeps_known_partial (hE : SearchReady E) (hK : KnownEdges E known)
    (hmp : ∀ k, mp = some k → (E.struct.labels.length : ℤ) - 1 ≤ k)
    (h : E.hill n mp iterations patience pick drop = .ok (es, log)) (p : Label) (hp : (p, n) ∈ known) : (p, n) ∈ es := by
  obtain ⟨hn, prior, s0, g0, h1, h2, h3, g, h4, rfl⟩ := hill_run hE hK h
  obtain ⟨-, best, count, u, hI⟩ := hillLoop_inv hE hn (fun p hp => mem_otherNodes.1 hp) _ _ _ _ _ _ _ h3 h4
  exact (hI.graph.edges_mem _).2 ⟨rfl, hI.keeps (fun k hk => by have := hmp k hk; omega) p ((h2 p).2 hp)⟩

/-- C49.  If the score of a structure is a function `f` of the parents of `n`, hill climbing returns a structure whose score is
the maximum of all scores evaluated; the first evaluated is that of the known parents. -/
theorem hill_returns_best {f : Finset Label → Py S} (hE : SearchReady E) (hK : KnownEdges E known) (hf : ScoreOf E n f)
    (h : E.hill n mp iterations patience pick drop = .ok (es, log)) :
    ∃ best s0, f (parentsIn es n) = .ok best ∧ best ∈ log ∧ (∀ x ∈ log, x ≤ best) ∧
      log.head? = some s0 ∧ f (parentsIn known n) = .ok s0 := by
  obtain ⟨hn, prior, s0, g0, h1, h2, h3, g, h4, rfl⟩ := hill_run hE hK h
  obtain ⟨hpre, best, count, u, hI⟩ := hillLoop_inv hE hn (fun p hp => mem_otherNodes.1 hp) _ _ _ _ _ _ _ h3 h4
  obtain ⟨pre, post, l1, l2, l3, l4⟩ := hI.log
  refine ⟨best, s0, ?_, by simp [l1], fun x hx => ?_, ?_, ?_⟩
  · rw [hI.graph.parentsIn_eq]; exact hI.score f hf
  · rw [l1] at hx
    rcases List.mem_append.1 hx with hx | hx
    · exact (l2 x hx).le
    rcases List.mem_cons.1 hx with rfl | hx
    · exact le_rfl
    exact l3 x hx
  · obtain ⟨t, ht⟩ := hpre
    rw [← ht]; rfl
  · rw [parentsIn_known h2]; exact h3.score f hf

theorem patient_single (m : Nat) (s : S) : Patient m [s] := by
  intro l l1 l2
  rcases List.prefix_cons_iff.1 l1 with rfl | ⟨t, rfl, ht⟩
  · exact absurd rfl l2
  · rw [List.prefix_nil.1 ht]; exact ⟨0, Nat.zero_le _, Stalled.single _⟩

/-- C50.  At most `iterations` candidates are evaluated after the starting structure, exactly that many without patience; with
patience `m`, the search stops right after `m + 1` evaluations in a row without improvement unless the iteration limit comes
first, and at no earlier moment were there more than `m`. -/
theorem hill_limits (hE : SearchReady E) (hK : KnownEdges E known)
    (h : E.hill n mp iterations patience pick drop = .ok (es, log)) :
    log.length ≤ iterations + 1 ∧ (patience = none → log.length = iterations + 1) ∧
    ∀ m : Nat, patience = some (m : ℤ) →
      (log.length = iterations + 1 ∨ Stalled log (m + 1)) ∧
      ∀ l, l <+: log → l ≠ log → l ≠ [] → ∃ c, c ≤ m ∧ Stalled l c := by
  obtain ⟨hn, prior, s0, g0, h1, h2, h3, g, h4, rfl⟩ := hill_run hE hK h
  obtain ⟨k1, k2, k3⟩ := hillLoop_limits hE hn (fun p hp => mem_otherNodes.1 hp) _ _ _ _ _ _ _ h3 h4
  simp only [List.length_singleton] at k1 k2 k3
  refine ⟨by omega, fun hp => by rw [k2 hp]; omega, fun m hm => ?_⟩
  obtain ⟨k4, k5⟩ := k3 m hm (patient_single m s0) (Nat.zero_le _)
  exact ⟨k4.imp (fun h => by omega) id, k5⟩

/-- How long the current best has stood is determined by the evaluations, so `Stalled` in C50 is not a choice. -/
theorem stalled_unique {a b : Nat} (h1 : Stalled log a) (h2 : Stalled log b) : a = b := by
  obtain ⟨p1, x1, q1, rfl, hp1, hq1, rfl⟩ := h1
  obtain ⟨p2, x2, q2, he, hp2, hq2, rfl⟩ := h2
  rcases List.append_eq_append_iff.1 he with ⟨t, rfl, ht⟩ | ⟨t, rfl, ht⟩
  · cases t with
    | nil => simp only [List.nil_append, List.cons.injEq] at ht; rw [ht.2]
    | cons y t =>
      simp only [List.cons_append, List.cons.injEq] at ht
      obtain ⟨rfl, rfl⟩ := ht
      have h1 := hq1 x2 (by simp)
      have h2 := hp2 x1 (by simp)
      exact absurd h1 (not_le.2 h2)
  · cases t with
    | nil => simp only [List.nil_append, List.cons.injEq] at ht; rw [ht.2]
    | cons y t =>
      simp only [List.cons_append, List.cons.injEq] at ht
      obtain ⟨rfl, rfl⟩ := ht
      have h1 := hq2 x1 (by simp)
      have h2 := hp1 x2 (by simp)
      exact absurd h1 (not_le.2 h2)

theorem prior_sub (hE : SearchReady E) (hK : KnownEdges E known) {prior : List Label} (h3 : ∀ p, p ∈ prior ↔ (p, n) ∈ known) :
    ∀ p ∈ prior, p ∈ E.struct.labels := by
  have hbuilt := (removable_matrix_built_iff E.struct.labels.length known).1 ⟨_, hK.built⟩
  intro p hp
  obtain ⟨i, _, k1, _, _, _⟩ := hbuilt _ ((h3 p).1 hp)
  exact List.mem_of_getElem? ((getNodeIndx_range hE.wf hK.indexed _ _).1 k1)

theorem mem_candidates {prior : List Label} (h3 : ∀ p, p ∈ prior ↔ (p, n) ∈ known) (p : Label) :
    p ∈ candidates E known n ↔ p ∈ E.otherNodes n prior := by
  rw [candidates, Finset.mem_sdiff, Finset.mem_erase, parentsIn_known h3, mem_otherNodes, List.mem_toFinset, List.mem_toFinset]
  tauto

theorem search_start (hE : SearchReady E) (hK : KnownEdges E known) (hn : n ∈ E.struct.labels) (hs : Scorable E n) :
    ∃ j prior s0 g0, E.struct.getNodeIndx n = .ok j ∧ E.priorParents j = .ok prior ∧ (∀ p, p ∈ prior ↔ (p, n) ∈ known) ∧
      E.scoreGraph n (E.initGraph n prior) = .ok (s0, g0) ∧ ∀ mp, SInv E n mp prior g0 s0 0 [s0] prior := by
  obtain ⟨j, hj⟩ : ∃ j, E.struct.getNodeIndx n = .ok j := by
    obtain ⟨j, hlt, hj⟩ := List.getElem_of_mem hn
    exact ⟨j, (getNodeIndx_range hE.wf hK.indexed n j).2 (by rw [List.getElem?_eq_getElem hlt, hj])⟩
  obtain ⟨prior, h1, h2, h3⟩ := priorParents_spec hE hK hj
  have hsub := prior_sub hE hK h3
  obtain ⟨s0, g0, h4⟩ := scoreGraph_init hE hn hsub hs
  exact ⟨j, prior, s0, g0, hj, h1, h3, h4, fun mp => SInv.init hE hn hsub h2 (fun hc => hK.noLoop _ ((h3 n).1 hc) rfl) h4⟩

/-- C51 (partial).  If scores can be computed, there is a candidate parent, and `max_parents` is unset or positive, hill climbing
returns.  Missing: no candidate (`hill_fails_without_candidates`) and `max_parents ≤ 0` (`hill_fails_max_parents_zero`), where
it raises. -/
theorem hill_returns_partial (hE : SearchReady E) (hK : KnownEdges E known) (hn : n ∈ E.struct.labels) (hs : Scorable E n)
    (hmp : ∀ k, mp = some k → 1 ≤ k) (hc : (candidates E known n).Nonempty) :
    ∃ es log, E.hill n mp iterations patience pick drop = .ok (es, log) := by
  obtain ⟨j, prior, s0, g0, h1, h2, h3, h4, h5⟩ := search_start hE hK hn hs
  have hne : E.otherNodes n prior ≠ [] := by
    obtain ⟨p, hp⟩ := hc
    rw [mem_candidates h3] at hp
    rintro h; rw [h] at hp; cases hp
  obtain ⟨⟨g, log⟩, h6⟩ := hillLoop_ok (mp := mp) (patience := patience) (pick := pick) (drop := drop) hE hn
    (fun p hp => mem_otherNodes.1 hp) hs hmp hne iterations 0 g0 s0 0 [s0] prior (h5 mp)
  refine ⟨g.edges, log, ?_⟩
  unfold hill
  rw [h1]
  simp only [Except.bind_ok', h2, h4, h6]
  rfl

/-- C51 (refuted): when every other variable is a known parent (or there is none), hill climbing raises `IndexError` in its
first iteration. -/
theorem hill_fails_without_candidates (hE : SearchReady E) (hK : KnownEdges E known) (hn : n ∈ E.struct.labels) (hs : Scorable E n)
    (hc : candidates E known n = ∅) (hi : 0 < iterations) :
    E.hill n mp iterations patience pick drop = .error .indexError := by
  obtain ⟨j, prior, s0, g0, h1, h2, h3, h4, h5⟩ := search_start hE hK hn hs
  have hnil : E.otherNodes n prior = [] := by
    rw [List.eq_nil_iff_forall_not_mem]
    intro p hp
    rw [← mem_candidates h3, hc] at hp
    simp at hp
  obtain ⟨k, rfl⟩ := Nat.exists_eq_succ_of_ne_zero hi.ne'
  unfold hill
  rw [h1]
  simp only [Except.bind_ok', h2, h4, hnil]
  rw [hillLoop]
  simp [choice]

/-- C51 (refuted): with `max_parents ≤ 0` and no known parent, hill climbing raises `IndexError` in its first iteration. -/
theorem hill_fails_max_parents_zero {k : ℤ} (hE : SearchReady E) (hK : KnownEdges E known) (hn : n ∈ E.struct.labels)
    (hs : Scorable E n) (hk : k ≤ 0) (hno : parentsIn known n = ∅) (hi : 0 < iterations) :
    E.hill n (some k) iterations patience pick drop = .error .indexError := by
  obtain ⟨j, prior, s0, g0, h1, h2, h3, h4, h5⟩ := search_start hE hK hn hs
  have hprior : prior = [] := by
    rw [parentsIn_known h3] at hno
    simpa using hno
  subst hprior
  obtain ⟨i, rfl⟩ := Nat.exists_eq_succ_of_ne_zero hi.ne'
  unfold hill
  rw [h1]
  simp only [Except.bind_ok', h2, h4]
  rw [hillLoop]
  by_cases hnil : E.otherNodes n [] = []
  · simp [choice, hnil]
  · obtain ⟨p, hp, hpc⟩ := choice_ok hnil (pick 0)
    have hI := h5 (some k)
    obtain ⟨ps, k1, k2⟩ := hI.graph.parents hI.nodup hI.key
    have : ps = [] := List.perm_nil.1 k2
    subst this
    have hprop : propose n (some k) g0 p (drop 0) = .error .indexError := by
      unfold propose
      rw [hI.graph.hasEdge]
      simp [k1, hk, choice]
    rw [hpc]
    simp [tryMove, hprop]

/-! ## Tabu search -/

variable {tl td : Option ℤ} {start : S} {steps : List (TabuStep S)}

theorem QInv.empty (others : List Label) (length : ℤ) : QInv others [] [] [] length :=
  ⟨by simp, by simp, by simp, List.suffix_rfl, by simp⟩

theorem tabu_run (hE : SearchReady E) (hK : KnownEdges E known)
    (h : E.tabu n mp iterations patience tl td pick drop = .ok (es, start, steps)) :
    n ∈ E.struct.labels ∧ ∃ prior g0, prior.Nodup ∧ (∀ p, p ∈ prior ↔ (p, n) ∈ known) ∧
      SInv E n mp prior g0 start 0 [start] prior ∧
      ∃ g, E.tabuLoop n (E.otherNodes n prior) mp patience (tl.getD (E.otherNodes n prior).length)
        (td.getD (E.otherNodes n prior).length) pick drop iterations 0 g0 start 0 [] [] 0 [] = .ok (g, steps) ∧ es = g.edges := by
  unfold tabu at h
  cases hj : E.struct.getNodeIndx n with
  | error e => rw [hj] at h; simp at h
  | ok j =>
    rw [hj] at h
    simp only [Except.bind_ok'] at h
    have hn : n ∈ E.struct.labels := List.mem_of_getElem? ((getNodeIndx_range hE.wf hK.indexed n j).1 hj)
    obtain ⟨prior, h1, h2, h3⟩ := priorParents_spec hE hK hj
    rw [h1] at h
    simp only [Except.bind_ok'] at h
    cases hs : E.scoreGraph n (E.initGraph n prior) with
    | error e => rw [hs] at h; simp at h
    | ok o =>
      obtain ⟨s0, g0⟩ := o
      rw [hs] at h
      simp only [Except.bind_ok'] at h
      have hsub := prior_sub hE hK h3
      have hloop : n ∉ prior := fun hc => hK.noLoop _ ((h3 n).1 hc) rfl
      cases hh : E.tabuLoop n (E.otherNodes n prior) mp patience (tl.getD (E.otherNodes n prior).length)
        (td.getD (E.otherNodes n prior).length) pick drop iterations 0 g0 s0 0 [] [] 0 [] with
      | error e => rw [hh] at h; simp at h
      | ok o2 =>
        obtain ⟨g, log'⟩ := o2
        rw [hh] at h
        simp only [Except.bind_ok', pure, Except.pure, Except.ok.injEq, Prod.mk.injEq] at h
        obtain ⟨rfl, rfl, rfl⟩ := h
        exact ⟨hn, prior, g0, h2, h3, SInv.init hE hn hsub h2 hloop hs, g, hh, rfl⟩

theorem tabu_facts (hE : SearchReady E) (hK : KnownEdges E known)
    (h : E.tabu n mp iterations patience tl td pick drop = .ok (es, start, steps)) :
    ∃ prior g best count u, prior.Nodup ∧ (∀ p, p ∈ prior ↔ (p, n) ∈ known) ∧ es = g.edges ∧
      SInv E n mp prior g best count (start :: steps.map TabuStep.score) u ∧
      (∀ f, ScoreOf E n f → f prior.toFinset = .ok start) ∧
      LogOk (E.otherNodes n prior) (tl.getD (E.otherNodes n prior).length) steps ∧
      steps.length ≤ iterations ∧ (patience = none → steps.length = iterations) ∧
      ∀ m : Nat, patience = some (m : ℤ) →
        (steps.length = iterations ∨ Stalled (start :: steps.map TabuStep.score) (m + 1)) ∧
        ∀ l, l <+: start :: steps.map TabuStep.score → l ≠ start :: steps.map TabuStep.score → l ≠ [] →
          ∃ c, c ≤ m ∧ Stalled l c := by
  obtain ⟨hn, prior, g0, h1, h2, h3, g, h4, rfl⟩ := tabu_run hE hK h
  obtain ⟨k1, ⟨best, count, u, k2⟩, k3, k4, k5⟩ := tabuLoop_inv hE hn (fun p hp => mem_otherNodes.1 hp) start _ _ _ _ _ _ _ _ _ _
    (by simpa using h3) (QInv.empty _ _) (fun i hi => by simp at hi) h4
  simp only [List.length_nil, Nat.zero_add] at k3 k4 k5
  exact ⟨prior, g, best, count, u, h1, h2, rfl, k2, h3.score, k1, k3, k4, fun m hm => k5 m hm (patient_single m start) (Nat.zero_le _)⟩

/-- C52.  Tabu search on `n` returns edges into `n` only, each once, from variables other than `n`, and at most
`max(max_parents, number of known parents)` of them. -/
theorem tabu_edges_into_node (hE : SearchReady E) (hK : KnownEdges E known)
    (h : E.tabu n mp iterations patience tl td pick drop = .ok (es, start, steps)) :
    es.Nodup ∧ (∀ e ∈ es, e.2 = n ∧ e.1 ∈ E.struct.labels ∧ e.1 ≠ n) ∧
      ∀ k, mp = some k → (es.length : ℤ) ≤ max k (parentsIn known n).card := by
  obtain ⟨prior, g, best, count, u, h1, h2, rfl, hI, -⟩ := tabu_facts hE hK h
  refine ⟨hI.graph.edges_nodup, fun e he => ?_, fun k hk => ?_⟩
  · obtain ⟨k1, k2⟩ := (hI.graph.edges_mem e).1 he
    exact ⟨k1, hI.graph.sub _ k2, fun hc => hI.loop (hc ▸ k2)⟩
  · rw [parentsIn_known h2, List.toFinset_card_of_nodup h1, SInv.edges_length hI]
    exact hI.bound k hk

/-- C53.  If the score of a structure is a function `f` of the parents of `n`, tabu search returns a structure whose score is
the maximum of all scores evaluated, of which the first is that of the known parents. -/
theorem tabu_returns_best {f : Finset Label → Py S} (hE : SearchReady E) (hK : KnownEdges E known) (hf : ScoreOf E n f)
    (h : E.tabu n mp iterations patience tl td pick drop = .ok (es, start, steps)) :
    ∃ best, f (parentsIn es n) = .ok best ∧ best ∈ start :: steps.map TabuStep.score ∧
      (∀ x ∈ start :: steps.map TabuStep.score, x ≤ best) ∧ f (parentsIn known n) = .ok start := by
  obtain ⟨prior, g, best, count, u, h1, h2, rfl, hI, h0, -⟩ := tabu_facts hE hK h
  obtain ⟨pre, post, l1, l2, l3, l4⟩ := hI.log
  refine ⟨best, ?_, by simp [l1], fun x hx => ?_, ?_⟩
  · rw [hI.graph.parentsIn_eq]; exact hI.score f hf
  · rw [l1] at hx
    rcases List.mem_append.1 hx with hx | hx
    · exact (l2 x hx).le
    rcases List.mem_cons.1 hx with rfl | hx
    · exact le_rfl
    exact l3 x hx
  · rw [parentsIn_known h2]; exact h0 f hf

/-- C54 (partial).  The known edges into `n` survive tabu search if `max_parents` is not set or at least the number of other
variables.  What is missing is every smaller `max_parents`, for which the claim can fail (`tabu_drops_known_edge`). -/
theorem tabu_keeps_known_partial (hE : SearchReady E) (hK : KnownEdges E known)
    (hmp : ∀ k, mp = some k → (E.struct.labels.length : ℤ) - 1 ≤ k)
    (h : E.tabu n mp iterations patience tl td pick drop = .ok (es, start, steps)) (p : Label) (hp : (p, n) ∈ known) :
    (p, n) ∈ es := by
  obtain ⟨prior, g, best, count, u, h1, h2, rfl, hI, -⟩ := tabu_facts hE hK h
  exact (hI.graph.edges_mem _).2 ⟨rfl, hI.keeps (fun k hk => by have := hmp k hk; omega) p ((h2 p).2 hp)⟩

/-- C55.  In every iteration the tabu list consists of the most recently examined candidates, without repetition, at most
`tabu_length` of them (by default the number of candidates); the next candidate is not on it, unless all candidates are, in
which case it is the oldest one on the list. -/
theorem tabu_discipline (hE : SearchReady E) (hK : KnownEdges E known)
    (h : E.tabu n mp iterations patience tl td pick drop = .ok (es, start, steps)) (i : Nat) (hi : i < steps.length) :
    steps[i].cand ∈ candidates E known n ∧
    steps[i].queue <:+ (steps.take i).map TabuStep.cand ∧
    steps[i].queue.Nodup ∧
    (steps[i].queue.length : ℤ) ≤ max 0 (tl.getD (candidates E known n).card) ∧
    (steps[i].cand ∉ steps[i].queue ∨
      ((∀ x ∈ candidates E known n, x ∈ steps[i].queue) ∧ steps[i].queue.head? = some steps[i].cand)) := by
  obtain ⟨prior, g, best, count, u, h1, h2, rfl, hI, -, hL, -⟩ := tabu_facts hE hK h
  obtain ⟨s1, s2, s3, s4, s5, s6⟩ := hL i hi
  have hcard : (candidates E known n).card = (E.otherNodes n prior).length := by
    have : candidates E known n = (E.otherNodes n prior).toFinset := by
      ext p; rw [mem_candidates h2, List.mem_toFinset]
    rw [this, List.toFinset_card_of_nodup (show (E.otherNodes n prior).Nodup from hE.wf.nodup.filter _)]
  refine ⟨(mem_candidates h2 _).2 s1, s4, s2, by rw [hcard]; exact s5, s6.imp id (fun hh => ⟨fun x hx => hh.1 x ((mem_candidates h2 _).1 hx), hh.2⟩)⟩

/-- C50 for tabu search: the iteration and patience limits. -/
theorem tabu_limits (hE : SearchReady E) (hK : KnownEdges E known)
    (h : E.tabu n mp iterations patience tl td pick drop = .ok (es, start, steps)) :
    steps.length ≤ iterations ∧ (patience = none → steps.length = iterations) ∧
    ∀ m : Nat, patience = some (m : ℤ) →
      (steps.length = iterations ∨ Stalled (start :: steps.map TabuStep.score) (m + 1)) ∧
      ∀ l, l <+: start :: steps.map TabuStep.score → l ≠ start :: steps.map TabuStep.score → l ≠ [] →
        ∃ c, c ≤ m ∧ Stalled l c := by
  obtain ⟨prior, g, best, count, u, h1, h2, rfl, hI, -, hL, k1, k2, k3⟩ := tabu_facts hE hK h
  exact ⟨k1, k2, k3⟩

/-- C56 (partial).  If scores can be computed, there is a candidate, `max_parents` is unset or positive, `tabu_length` unset or
positive and `tabu_rules_duration` unset or nonzero, tabu search returns: it neither blocks on the queue nor raises.  Missing:
the configurations of the three theorems below, where it hangs or raises. -/
theorem tabu_never_blocks_partial (hE : SearchReady E) (hK : KnownEdges E known) (hn : n ∈ E.struct.labels) (hs : Scorable E n)
    (hmp : ∀ k, mp = some k → 1 ≤ k) (hc : (candidates E known n).Nonempty) (htl : ∀ k, tl = some k → 1 ≤ k)
    (htd : ∀ k, td = some k → k ≠ 0) :
    ∃ es start steps, E.tabu n mp iterations patience tl td pick drop = .ok (es, start, steps) := by
  obtain ⟨j, prior, s0, g0, h1, h2, h3, h4, h5⟩ := search_start hE hK hn hs
  have hne : E.otherNodes n prior ≠ [] := by
    obtain ⟨p, hp⟩ := hc
    rw [mem_candidates h3] at hp
    rintro h; rw [h] at hp; cases hp
  have hpos := List.length_pos_iff.2 hne
  obtain ⟨⟨g, log⟩, h6⟩ := tabuLoop_ok (mp := mp) (patience := patience) (pick := pick) (drop := drop)
    (length := tl.getD (E.otherNodes n prior).length) (duration := td.getD (E.otherNodes n prior).length) hE hn
    (fun p hp => mem_otherNodes.1 hp) hs hmp hne
    (by cases tl with
        | none => simpa using hpos
        | some k => have := htl k rfl; simp only [Option.getD_some]; omega)
    (by cases td with
        | none => simp only [Option.getD_none]; omega
        | some k => exact htd k rfl)
    s0 iterations 0 g0 s0 0 [] [] 0 [] prior (by simpa using h5 mp) (QInv.empty _ _) (fun i hi => by simp at hi)
  refine ⟨g.edges, s0, log, ?_⟩
  unfold tabu
  rw [h1]
  simp only [Except.bind_ok', h2, h4, h6]
  rfl

/-- C56 (refuted): without a candidate, tabu search waits forever on its empty queue. -/
theorem tabu_blocks_without_candidates (hE : SearchReady E) (hK : KnownEdges E known) (hn : n ∈ E.struct.labels)
    (hs : Scorable E n) (hc : candidates E known n = ∅) (hi : 0 < iterations) :
    E.tabu n mp iterations patience tl td pick drop = .error .blocked := by
  obtain ⟨j, prior, s0, g0, h1, h2, h3, h4, h5⟩ := search_start hE hK hn hs
  have hnil : E.otherNodes n prior = [] := by
    rw [List.eq_nil_iff_forall_not_mem]
    intro p hp
    rw [← mem_candidates h3, hc] at hp
    simp at hp
  obtain ⟨k, rfl⟩ := Nat.exists_eq_succ_of_ne_zero hi.ne'
  unfold tabu
  rw [h1]
  simp only [Except.bind_ok', h2, h4, hnil]
  rw [tabuLoop]
  simp [tabuPick, tabuPop, queueGet]

theorem tabu_first_iteration (hE : SearchReady E) (hK : KnownEdges E known) (hn : n ∈ E.struct.labels)
    (hs : Scorable E n) (hmp : ∀ k, mp = some k → 1 ≤ k) (hc : (candidates E known n).Nonempty) {e : PyErr}
    (hbad : ∀ p, tabuUpdate (tl.getD (candidates E known n).card) (td.getD (candidates E known n).card) [] [] p 0 = .error e) (hi : 0 < iterations) :
    E.tabu n mp iterations patience tl td pick drop = .error e := by
  obtain ⟨j, prior, s0, g0, h1, h2, h3, h4, h5⟩ := search_start hE hK hn hs
  have hne : E.otherNodes n prior ≠ [] := by
    obtain ⟨p, hp⟩ := hc
    rw [mem_candidates h3] at hp
    rintro h; rw [h] at hp; cases hp
  have hcard : (candidates E known n).card = (E.otherNodes n prior).length := by
    have : candidates E known n = (E.otherNodes n prior).toFinset := by
      ext p; rw [mem_candidates h3, List.mem_toFinset]
    rw [this, List.toFinset_card_of_nodup (show (E.otherNodes n prior).Nodup from hE.wf.nodup.filter _)]
  rw [hcard] at hbad
  obtain ⟨k, rfl⟩ := Nat.exists_eq_succ_of_ne_zero hi.ne'
  obtain ⟨⟨p, q1, t1⟩, hp⟩ := tabuPick_ok (QInv.empty (E.otherNodes n prior) 0) hne (pick 0)
  obtain ⟨k1, k2, k3, k4, k5⟩ := tabuPick_spec (QInv.empty (E.otherNodes n prior) 0) hp
  have hq1 : q1 = [] := List.suffix_nil.1 k4
  subst hq1
  have ht1 : t1 = [] := by rw [List.eq_nil_iff_forall_not_mem]; intro x hx; simpa using (k3 x).1 hx
  subst ht1
  have hI := h5 mp
  obtain ⟨⟨g1, imp, s⟩, ht⟩ := tryMove_ok (mp := mp) hE hI.graph hI.nodup hI.key hn (mem_otherNodes.1 k1).1 hs hmp s0 (drop 0)
  unfold tabu
  rw [h1]
  simp only [Except.bind_ok', h2, h4]
  rw [tabuLoop]
  simp [hp, ht, hbad p]

/-- C56 (refuted): with `tabu_length ≤ 0` tabu search waits forever on its empty queue, in the first iteration. -/
theorem tabu_blocks_length_zero {k : ℤ} (hE : SearchReady E) (hK : KnownEdges E known) (hn : n ∈ E.struct.labels)
    (hs : Scorable E n) (hmp : ∀ k, mp = some k → 1 ≤ k) (hc : (candidates E known n).Nonempty) (hk : k ≤ 0) (hi : 0 < iterations) :
    E.tabu n mp iterations patience (some k) td pick drop = .error .blocked :=
  tabu_first_iteration hE hK hn hs hmp hc (fun p => by simp [tabuUpdate, tabuRoom, hk, tabuPop, queueGet]) hi

/-- C56 (refuted): with `tabu_rules_duration = 0` tabu search raises `ZeroDivisionError` in the first iteration. -/
theorem tabu_fails_duration_zero (hE : SearchReady E) (hK : KnownEdges E known) (hn : n ∈ E.struct.labels)
    (hs : Scorable E n) (hmp : ∀ k, mp = some k → 1 ≤ k) (hc : (candidates E known n).Nonempty) (htl : ∀ k, tl = some k → 1 ≤ k)
    (hi : 0 < iterations) :
    E.tabu n mp iterations patience tl (some 0) pick drop = .error .zeroDivisionError := by
  refine tabu_first_iteration hE hK hn hs hmp hc (fun p => ?_) hi
  have : ¬ (tl.getD ((candidates E known n).card) ≤ 0) := by
    cases tl with
    | none => have := hc.card_pos; simp only [Option.getD_none]; omega
    | some k => have := htl k rfl; simp only [Option.getD_some]; omega
  simp [tabuUpdate, tabuRoom, this]

/-! ## A concrete search, meeting the hypotheses of all theorems above -/

/-- Three variables; the score of `X` rewards the parent `Z`, and `Y` less. -/
def demoSearch : SearchEnv ℤ where
  struct := ⟨["X", "Y", "Z"], [0, 1, 2], [2, 2, 2], [], 3⟩
  removable := [[true, true, true], [false, true, true], [true, true, true]]
  score _ g := .ok ((if ("Z", "X") ∈ g.edges then 2 else 0) + (if ("Y", "X") ∈ g.edges then 1 else 0))

def demoKnown : List Edge := [("Y", "X")]

theorem demo_ready : SearchReady demoSearch := ⟨⟨by decide, by decide, by decide⟩, rfl⟩

theorem demo_known : KnownEdges demoSearch demoKnown := ⟨by decide, by decide +kernel, by decide⟩

theorem demo_scorable : Scorable demoSearch "X" := fun _ _ _ _ => ⟨_, rfl⟩

theorem demo_scoreOf : ScoreOf demoSearch "X"
    (fun ps => .ok ((if "Z" ∈ ps then 2 else 0) + (if "Y" ∈ ps then 1 else 0))) := by
  intro g g' _ _
  have : ∀ p, p ∈ parentsIn g'.edges "X" ↔ (p, "X") ∈ g'.edges := by
    intro p
    simp only [parentsIn, List.mem_toFinset, List.mem_map, List.mem_filter, decide_eq_true_eq]
    constructor
    · rintro ⟨⟨a, b⟩, ⟨h1, h2⟩, h3⟩; simp only at h2 h3; rw [← h2, ← h3]; exact h1
    · intro hp; exact ⟨_, ⟨hp, rfl⟩, rfl⟩
  simp only [this]
  rfl

example : candidates demoSearch demoKnown "X" = {"Z"} := by decide

/-- The search finds both parents without a limit on the parents. -/
example : demoSearch.hill "X" none 3 (some 0) (fun _ => 0) (fun _ => 0) = .ok ([("Y", "X"), ("Z", "X")], [1, 3, 1]) := by
  decide +kernel

/-- C48 (refuted): with `max_parents = 1` hill climbing exchanges the known parent `Y` for `Z`. -/
theorem hill_drops_known_edge : SearchReady demoSearch ∧ KnownEdges demoSearch demoKnown ∧
    ∃ es log, demoSearch.hill "X" (some 1) 1 none (fun _ => 0) (fun _ => 0) = .ok (es, log) ∧
      ("Y", "X") ∈ demoKnown ∧ ("Y", "X") ∉ es :=
  ⟨demo_ready, demo_known, [("Z", "X")], [1, 2], by decide +kernel, by decide, by decide⟩

/-- C54 (refuted): so does tabu search. -/
theorem tabu_drops_known_edge : SearchReady demoSearch ∧ KnownEdges demoSearch demoKnown ∧
    ∃ es start steps, demoSearch.tabu "X" (some 1) 1 none none none (fun _ => 0) (fun _ => 0) = .ok (es, start, steps) ∧
      ("Y", "X") ∈ demoKnown ∧ ("Y", "X") ∉ es :=
  ⟨demo_ready, demo_known, [("Z", "X")], 1, [⟨"Z", [], 2⟩], rfl, by decide, by decide⟩

end PyCTBN
