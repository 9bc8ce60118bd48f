import Verif.Lemmas.CtpcLoop

/-! What the search (with an always empty cache) establishes. -/

namespace PyCTBN
open Spec

namespace CBEnv
variable {E : CBEnv}

/-- The outcome of one test by verdict. -/
theorem test_uncached {child p : Label} {c i j : Nat} (hi : E.struct.getNodeIndx p = .ok i)
    (hj : E.struct.getNodeIndx child = .ok j) (S : List Label) (m : List (List Bool)) :
    (uncached E child c).test p S m = match freshVerdict E child c p S with
      | .error e => (.error e, m)
      | .ok .accept => (.ok true, m)
      | .ok .reject => (.ok false, m)
      | .ok .rejectMark => match setFalse m i j with
        | .error e => (.error e, m)
        | .ok m' => (.ok false, m') := by
  simp only [uncached, calls, hi, hj, completeTest, freshVerdict]
  generalize E.verdict [] p child S c = r
  obtain ⟨r1, r2⟩ := r
  cases r1 with
  | error e => rfl
  | ok v =>
    cases v with
    | accept => rfl
    | reject => rfl
    | rejectMark => simp only; cases setFalse m i j <;> rfl

/-- Freezing: cells only change from true to false, each on the strength of a data-size verdict. -/
def Marks (E : CBEnv) (child : Label) (c : Nat) (u₀ : List Label) (m₀ m : List (List Bool)) : Prop :=
  ∀ a b, getFlag m a b = getFlag m₀ a b ∨ (getFlag m a b = .ok false ∧ E.struct.getNodeIndx child = .ok b ∧
    ∃ p ∈ u₀, E.struct.getNodeIndx p = .ok a ∧
      ∃ S, S.Sublist (u₀.erase p) ∧ freshVerdict E child c p S = .ok .rejectMark)

theorem Marks.refl {child : Label} {c : Nat} {u₀ : List Label} (m : List (List Bool)) : Marks E child c u₀ m m :=
  fun _ _ => Or.inl rfl

theorem Marks.flag {child : Label} {c : Nat} {u₀ : List Label} {m₀ m : List (List Bool)} (h : Marks E child c u₀ m₀ m)
    {q : Label} (hq : (uncached E child c).flag q m = .ok true) : (uncached E child c).flag q m₀ = .ok true := by
  simp only [uncached, calls] at hq ⊢
  cases h1 : E.struct.getNodeIndx q with
  | error e => rw [h1] at hq; simp at hq
  | ok a =>
    cases h2 : E.struct.getNodeIndx child with
    | error e => rw [h1, h2] at hq; simp at hq
    | ok b =>
      rw [h1, h2] at hq
      simp only [Except.bind_ok'] at hq ⊢
      rcases h a b with h | ⟨h, _⟩
      · rw [← h]; exact hq
      · rw [h] at hq; cases hq

theorem Marks.trans {child : Label} {c : Nat} {u₀ : List Label} {m₀ m m' : List (List Bool)} (h : Marks E child c u₀ m₀ m)
    (h' : Marks E child c u₀ m m') : Marks E child c u₀ m₀ m' := by
  intro a b
  rcases h' a b with e | e
  · rw [e]; exact h a b
  · exact Or.inr e

theorem subsetLoop_uncached {child p : Label} {c : Nat} {u₀ : List Label} (hw : WFStructure E.struct)
    (hc : child ∈ E.struct.labels) (hp : p ∈ E.struct.labels) (hpu : p ∈ u₀) (Ss : List (List Label))
    (hSs : ∀ S ∈ Ss, S.Sublist (u₀.erase p)) (m : List (List Bool)) :
    let r := subsetLoop (uncached E child c) p Ss m
    Marks E child c u₀ m r.2 ∧
    (r.1 = .ok true → ∃ S ∈ Ss, freshVerdict E child c p S = .ok .accept) ∧
    (r.1 = .ok false → (uncached E child c).flag p r.2 = .ok true → ∀ S ∈ Ss, freshVerdict E child c p S = .ok .reject) := by
  obtain ⟨i, _, hi⟩ := getNodeIndx_mem hw hp
  obtain ⟨j, _, hj⟩ := getNodeIndx_mem hw hc
  induction Ss generalizing m with
  | nil => exact ⟨Marks.refl m, fun h => by simp [subsetLoop] at h, fun _ _ S hS => by simp at hS⟩
  | cons S Ss ih =>
    have ih' := ih (fun T hT => hSs T (by simp [hT]))
    dsimp only at ih' ⊢
    unfold subsetLoop
    rw [test_uncached hi hj]
    cases hv : freshVerdict E child c p S with
    | error e => exact ⟨Marks.refl m, fun h => by simp at h, fun h => by simp at h⟩
    | ok v =>
      cases v with
      | accept => exact ⟨Marks.refl m, fun _ => ⟨S, by simp, hv⟩, fun h => by simp at h⟩
      | reject =>
        obtain ⟨k1, k2, k3⟩ := ih' m
        refine ⟨k1, fun h => ?_, fun h hf T hT => ?_⟩
        · obtain ⟨T, hT, h⟩ := k2 h; exact ⟨T, by simp [hT], h⟩
        · rcases List.mem_cons.1 hT with rfl | hT
          · exact hv
          · exact k3 h hf T hT
      | rejectMark =>
        simp only
        cases hs : setFalse m i j with
        | error e => exact ⟨Marks.refl m, fun h => by simp at h, fun h => by simp at h⟩
        | ok m' =>
          simp only
          obtain ⟨k1, k2, k3⟩ := ih' m'
          have hm : Marks E child c u₀ m m' := by
            intro a b
            rw [setFalse_getFlag hs]
            split
            · rename_i hab
              obtain ⟨rfl, rfl⟩ := hab
              exact Or.inr ⟨rfl, hj, p, hpu, hi, S, hSs S (by simp), hv⟩
            · exact Or.inl rfl
          refine ⟨hm.trans k1, fun h => ?_, fun h hf T hT => ?_⟩
          · obtain ⟨T, hT, h⟩ := k2 h; exact ⟨T, by simp [hT], h⟩
          · exfalso
            have h0 := k1.flag hf
            simp only [uncached, calls, hi, hj, Except.bind_ok', setFalse_getFlag hs] at h0
            simp at h0

/-- Invariant of the search started with candidates `u₀` and matrix `m₀`, at level `b`. -/
structure RInv (E : CBEnv) (child : Label) (c : Nat) (u₀ : List Label) (m₀ : List (List Bool)) (b : Nat) (u : List Label)
    (m : List (List Bool)) : Prop where
  sub : u.Sublist u₀
  removed : ∀ p ∈ u₀, p ∉ u → (uncached E child c).flag p m₀ = .ok true ∧
    ∃ S, S.Sublist (u₀.erase p) ∧ freshVerdict E child c p S = .ok .accept
  kept : ∀ p ∈ u, (uncached E child c).flag p m = .ok true → ∀ S, S.Sublist (u.erase p) → S.length < b →
    freshVerdict E child c p S = .ok .reject
  marks : Marks E child c u₀ m₀ m

theorem innerLoop_uncached {child : Label} {c b : Nat} {u₀ : List Label} {m₀ : List (List Bool)}
    (hw : WFStructure E.struct) (hc : child ∈ E.struct.labels) (hu₀ : ∀ x ∈ u₀, x ∈ E.struct.labels) (hnd₀ : u₀.Nodup)
    (u : List Label) (g : NetworkGraph) (idx : Nat) (m : List (List Bool)) (hI : RInv E child c u₀ m₀ b u m)
    (hA : ∀ q ∈ u.take idx, (uncached E child c).flag q m = .ok true → ∀ S, S.Sublist (u.erase q) → S.length = b →
      freshVerdict E child c q S = .ok .reject) :
    let r := innerLoop (uncached E child c) child b u g idx m
    Marks E child c u₀ m₀ r.2 ∧ ∀ u' g', r.1 = .ok (u', g') → RInv E child c u₀ m₀ (b + 1) u' r.2 := by
  fun_induction innerLoop (uncached E child c) child b u g idx m with
  | case4 u g idx m hlt =>
    refine ⟨hI.marks, ?_⟩
    intro u' g' h
    simp only [Except.ok.injEq, Prod.mk.injEq] at h
    obtain ⟨rfl, rfl⟩ := h
    refine ⟨hI.sub, hI.removed, ?_, hI.marks⟩
    intro p hp hf S hS hl
    by_cases hb : S.length < b
    · exact hI.kept p hp hf S hS hb
    · exact hA p (by rw [List.take_of_length_le (by omega)]; exact hp) hf S hS (by omega)
  | case1 u g idx m hlt e m1 hv =>
    refine ⟨?_, fun u' g' h => by simp at h⟩
    have hp := List.getElem_mem hlt
    unfold visit at hv
    cases hf : (uncached E child c).flag u[idx] m with
    | error e' => rw [hf] at hv; simp only [Prod.mk.injEq] at hv; rw [← hv.2]; exact hI.marks
    | ok v =>
      cases v with
      | false => rw [hf] at hv; simp at hv
      | true =>
        rw [hf, subSetsOfSize_of_mem hp] at hv
        simp only at hv
        have := subsetLoop_uncached (c := c) hw hc (hu₀ _ (hI.sub.subset hp)) (hI.sub.subset hp) (combos b (u.erase u[idx]))
          (fun S hS => (mem_combos.1 hS).1.trans (hI.sub.erase _)) m
        rw [hv] at this
        exact hI.marks.trans this.1
  | case2 u g idx m hlt m1 hv ih =>
    have hp := List.getElem_mem hlt
    have hnd := hnd₀.sublist hI.sub
    unfold visit at hv
    cases hf : (uncached E child c).flag u[idx] m with
    | error e' => rw [hf] at hv; simp at hv
    | ok v =>
      cases v with
      | false => rw [hf] at hv; simp at hv
      | true =>
        rw [hf, subSetsOfSize_of_mem hp] at hv
        simp only at hv
        have hsl := subsetLoop_uncached (c := c) hw hc (hu₀ _ (hI.sub.subset hp)) (hI.sub.subset hp) (combos b (u.erase u[idx]))
          (fun S hS => (mem_combos.1 hS).1.trans (hI.sub.erase _)) m
        rw [hv] at hsl
        obtain ⟨k1, k2, k3⟩ := hsl
        have hes : (u.erase u[idx]).Sublist u := List.erase_sublist
        apply ih
        · refine ⟨hes.trans hI.sub, ?_, ?_, hI.marks.trans k1⟩
          · intro p hp0 hpu
            by_cases hpe : p ∈ u
            · have : p = u[idx] := by
                by_contra hne
                exact hpu ((hnd.mem_erase_iff).2 ⟨hne, hpe⟩)
              subst this
              obtain ⟨S, hS, h⟩ := k2 rfl
              exact ⟨hI.marks.flag hf, S, (mem_combos.1 hS).1.trans (hI.sub.erase _), h⟩
            · exact hI.removed p hp0 hpe
          · intro p hp1 hf1 S hS hl
            exact hI.kept p (hes.subset hp1) (k1.flag hf1) S (hS.trans (hes.erase p)) hl
        · intro q hq hf1 S hS hl
          rw [erase_getElem_take hnd hlt] at hq
          exact hA q hq (k1.flag hf1) S (hS.trans (hes.erase q)) hl
  | case3 u g idx m hlt m1 hv ih =>
    have hp := List.getElem_mem hlt
    have hnd := hnd₀.sublist hI.sub
    have hstep : Marks E child c u₀ m m1 ∧ ((uncached E child c).flag u[idx] m1 = .ok true →
        ∀ S, S.Sublist (u.erase u[idx]) → S.length = b → freshVerdict E child c u[idx] S = .ok .reject) := by
      unfold visit at hv
      cases hf : (uncached E child c).flag u[idx] m with
      | error e' => rw [hf] at hv; simp at hv
      | ok v =>
        cases v with
        | false =>
          rw [hf] at hv
          simp only [Prod.mk.injEq, true_and] at hv
          subst hv
          exact ⟨Marks.refl m, fun h => by rw [hf] at h; cases h⟩
        | true =>
          rw [hf, subSetsOfSize_of_mem hp] at hv
          simp only at hv
          have hsl := subsetLoop_uncached (c := c) hw hc (hu₀ _ (hI.sub.subset hp)) (hI.sub.subset hp) (combos b (u.erase u[idx]))
            (fun S hS => (mem_combos.1 hS).1.trans (hI.sub.erase _)) m
          rw [hv] at hsl
          obtain ⟨k1, k2, k3⟩ := hsl
          exact ⟨k1, fun h S hS hl => k3 rfl h S (mem_combos.2 ⟨hS, hl⟩)⟩
    obtain ⟨k1, k2⟩ := hstep
    apply ih
    · exact ⟨hI.sub, hI.removed, fun p hp1 hf1 => hI.kept p hp1 (k1.flag hf1), hI.marks.trans k1⟩
    · intro q hq hf1 S hS hl
      rw [List.take_succ_eq_append_getElem hlt, List.mem_append, List.mem_singleton] at hq
      rcases hq with hq | rfl
      · exact hA q hq (k1.flag hf1) S hS hl
      · exact k2 hf1 S hS hl

theorem outerLoop_uncached {child : Label} {c b : Nat} {u₀ : List Label} {m₀ : List (List Bool)}
    (hw : WFStructure E.struct) (hc : child ∈ E.struct.labels) (hu₀ : ∀ x ∈ u₀, x ∈ E.struct.labels) (hnd₀ : u₀.Nodup)
    (u : List Label) (g : NetworkGraph) (m : List (List Bool)) (hI : RInv E child c u₀ m₀ b u m) :
    let r := outerLoop (uncached E child c) child b u g m
    Marks E child c u₀ m₀ r.2 ∧
    ∀ u' g', r.1 = .ok (u', g') → RInv E child c u₀ m₀ u'.length u' r.2 := by
  fun_induction outerLoop (uncached E child c) child b u g m with
  | case1 b u g m hlt e m1 hv =>
    have := innerLoop_uncached hw hc hu₀ hnd₀ u g 0 m hI (by simp)
    rw [hv] at this
    exact ⟨this.1, fun u' g' h => by simp at h⟩
  | case2 b u g m hlt u1 g1 m1 hv ih =>
    have := innerLoop_uncached hw hc hu₀ hnd₀ u g 0 m hI (by simp)
    rw [hv] at this
    exact ih (this.2 u1 g1 rfl)
  | case3 b u g m hlt =>
    refine ⟨hI.marks, ?_⟩
    intro u' g' h
    simp only [Except.ok.injEq, Prod.mk.injEq] at h
    obtain ⟨rfl, rfl⟩ := h
    exact ⟨hI.sub, hI.removed, fun p hp hf S hS hl => hI.kept p hp hf S hS (by omega), hI.marks⟩

/-! ## The graph kept alongside -/

/-- The edges of the graph are those from the current candidates. -/
structure GraphFor (child : Label) (u : List Label) (g : NetworkGraph) : Prop where
  mem : ∀ e, e ∈ g.graph.edges ↔ e.2 = child ∧ e.1 ∈ u
  nodup : g.graph.edges.Nodup
  keysNodup : g.graph.keys.Nodup
  keys : ∀ e ∈ g.graph.edges, e.1 ∈ g.graph.keys

theorem GraphFor.remove {child p : Label} {u : List Label} {g : NetworkGraph} (hu : u.Nodup) (h : GraphFor child u g) :
    GraphFor child (u.erase p) (g.removeEdges [(p, child)]) := by
  have hm : ∀ e, e ∈ (g.removeEdges [(p, child)]).graph.edges ↔ e ∈ g.graph.edges ∧ e ∉ [(p, child)] :=
    fun e => DiGraph.mem_removeEdgesFrom h.nodup
  refine ⟨?_, DiGraph.removeEdgesFrom_nodup h.nodup, h.keysNodup, fun e he => h.keys e ((hm e).1 he).1⟩
  intro e
  obtain ⟨e1, e2⟩ := e
  rw [hm, h.mem, hu.mem_erase_iff]
  simp only [List.mem_singleton, Prod.mk.injEq]
  constructor
  · rintro ⟨⟨h1, h2⟩, h3⟩; exact ⟨h1, fun h => h3 ⟨h, h1⟩, h2⟩
  · rintro ⟨h1, h2, h3⟩; exact ⟨⟨h1, h3⟩, fun h => h2 h.1⟩

theorem innerLoop_graph {σ : Type} {T : CBTest σ} {child : Label} {b : Nat} (u : List Label) (g : NetworkGraph) (idx : Nat)
    (s : σ) (hu : u.Nodup) (h : GraphFor child u g) {u' : List Label} {g' : NetworkGraph} {s' : σ}
    (hr : innerLoop T child b u g idx s = (.ok (u', g'), s')) : u'.Sublist u ∧ GraphFor child u' g' := by
  fun_induction innerLoop T child b u g idx s with
  | case1 => simp at hr
  | case2 u g idx s hlt s1 hv ih =>
    obtain ⟨h1, h2⟩ := ih (hu.erase _) (h.remove hu) hr
    exact ⟨h1.trans List.erase_sublist, h2⟩
  | case3 u g idx s hlt s1 hv ih => exact ih hu h hr
  | case4 =>
    simp only [Prod.mk.injEq, Except.ok.injEq] at hr
    obtain ⟨⟨rfl, rfl⟩, _⟩ := hr
    exact ⟨List.Sublist.refl _, h⟩

theorem outerLoop_graph {σ : Type} {T : CBTest σ} {child : Label} (b : Nat) (u : List Label) (g : NetworkGraph)
    (s : σ) (hu : u.Nodup) (h : GraphFor child u g) {u' : List Label} {g' : NetworkGraph} {s' : σ}
    (hr : outerLoop T child b u g s = (.ok (u', g'), s')) : u'.Sublist u ∧ GraphFor child u' g' := by
  fun_induction outerLoop T child b u g s with
  | case1 => simp at hr
  | case2 b u g s hlt u1 g1 s1 hv ih =>
    obtain ⟨h1, h2⟩ := innerLoop_graph u g 0 s hu h hv
    obtain ⟨h3, h4⟩ := ih (hu.sublist h1) h2 hr
    exact ⟨h3.trans h1, h4⟩
  | case3 =>
    simp only [Prod.mk.injEq, Except.ok.injEq] at hr
    obtain ⟨⟨rfl, rfl⟩, _⟩ := hr
    exact ⟨List.Sublist.refl _, h⟩

theorem startGraph_for (child : Label) : GraphFor child (E.others child) (E.startGraph child) := by
  unfold startGraph
  have key : ∀ (l u : List Label) (g : NetworkGraph), GraphFor child u g →
      GraphFor child (u ++ l) (l.foldl (fun g p => g.addEdges [(p, child)]) g) := by
    intro l
    induction l with
    | nil => intro u g h; simpa using h
    | cons p l ih =>
      intro u g h
      have := ih (u ++ [p]) (g.addEdges [(p, child)]) ?_
      · simpa using this
      · have hm : ∀ e, e ∈ (g.addEdges [(p, child)]).graph.edges ↔ e ∈ g.graph.edges ∨ e ∈ [(p, child)] :=
          fun e => DiGraph.mem_addEdgesFrom
        refine ⟨?_, DiGraph.addEdgesFrom_nodup h.nodup, DiGraph.addEdgesFrom_keys_nodup h.keysNodup, ?_⟩
        · rintro ⟨e1, e2⟩
          rw [hm, h.mem]
          simp only [List.mem_singleton, Prod.mk.injEq, List.mem_append]
          constructor
          · rintro (⟨h1, h2⟩ | ⟨h1, h2⟩)
            · exact ⟨h1, Or.inl h2⟩
            · exact ⟨h2, Or.inr h1⟩
          · rintro ⟨h1, h2 | h2⟩
            · exact Or.inl ⟨h1, h2⟩
            · exact Or.inr ⟨h2, h1⟩
        · intro e he
          refine DiGraph.mem_addEdgesFrom_keys.2 ?_
          rcases (hm e).1 he with h1 | h1
          · exact Or.inl (h.keys e h1)
          · exact Or.inr ⟨e, h1, Or.inl rfl⟩
  have := key (E.others child) [] (NetworkGraph.new E.struct) ?_
  · simpa using this
  · refine ⟨?_, ?_, ?_, ?_⟩ <;> simp [NetworkGraph.new, DiGraph.empty, DiGraph.keys]

theorem mem_edgesView {g : DiGraph} (hk : ∀ e ∈ g.edges, e.1 ∈ g.keys) {e : Edge} : e ∈ g.edgesView ↔ e ∈ g.edges := by
  unfold DiGraph.edgesView
  simp only [List.mem_flatMap, List.mem_filter, beq_iff_eq]
  constructor
  · rintro ⟨_, _, h, _⟩; exact h
  · intro h
    obtain ⟨q, hq, hqe⟩ := List.mem_map.1 (hk e h)
    exact ⟨q, hq, h, hqe.symm⟩

theorem edgesView_nodup {g : DiGraph} (hk : g.keys.Nodup) (he : g.edges.Nodup) : g.edgesView.Nodup := by
  unfold DiGraph.edgesView
  rw [List.nodup_flatMap]
  refine ⟨fun q _ => he.filter _, ?_⟩
  have : g.nodes.Pairwise (fun a b => a.1 ≠ b.1) := by
    unfold DiGraph.keys at hk
    exact List.pairwise_map.1 hk
  refine this.imp ?_
  intro a b hab e h1 h2
  simp only [List.mem_filter, beq_iff_eq] at h1 h2
  exact hab (h1.2.symm.trans h2.2)

/-- Everything the search for one child establishes, from an empty cache. -/
theorem optimize_run (hw : WFStructure E.struct) {child : Label} (hc : child ∈ E.struct.labels) {m : List (List Bool)} {c : Nat}
    (hcs : E.struct.getStatesNumber child = .ok c) {es : List Edge} {st' : CBState}
    (h : E.optimize ⟨[], m⟩ child = (.ok es, st')) :
    ∃ u, RInv E child c (E.others child) m u.length u st'.removable ∧ es.Nodup ∧ (∀ e, e ∈ es ↔ e.2 = child ∧ e.1 ∈ u) ∧
      st'.cache = [] := by
  obtain ⟨h1, h2, h3⟩ := optimize_sim hw hc m
  rw [h] at h1 h2 h3
  have h3' := h3 es rfl
  simp only at h1 h2 h3'
  unfold uncachedOptimize at h1 h2
  rw [hcs] at h1 h2
  simp only at h1 h2
  cases hr : outerLoop (uncached E child c) child 0 (E.others child) (E.startGraph child) m with
  | mk r1 m1 =>
    rw [hr] at h1 h2
    cases r1 with
    | error e => simp at h1
    | ok v =>
      obtain ⟨u, g⟩ := v
      simp only [Except.ok.injEq] at h1 h2
      have hI := outerLoop_uncached (c := c) (b := 0) (m₀ := m) hw hc (fun x hx => (others_mem.1 hx).1) (others_nodup hw child) (E.others child)
        (E.startGraph child) m ⟨List.Sublist.refl _, fun p h1 h2 => absurd h1 h2, fun p _ _ S _ hl => by omega, Marks.refl m⟩
      rw [hr] at hI
      have hg := outerLoop_graph 0 (E.others child) (E.startGraph child) m (others_nodup hw child) (startGraph_for child) hr
      refine ⟨u, ?_, ?_, ?_, h3'⟩
      · rw [h2]; exact hI.2 u g rfl
      · rw [h1]; exact edgesView_nodup hg.2.keysNodup hg.2.nodup
      · intro e
        rw [h1]
        exact (mem_edgesView hg.2.keys).trans (hg.2.mem e)

end CBEnv
end PyCTBN
