import Verif.Props.Oracle

/-!
# C218: what constraint-based estimation returns is a network over the variables

C30 describes the search for one child.  Here is the whole estimation, in whatever state the estimator is: edges between two
different variables of the structure, each once.  With tests that are right about a network (C112) the list returned has
exactly the edges of that network as its members.
-/
namespace PyCTBN
open Spec

/-- The results of the searches for a list of children, put together. -/
theorem flatten_shape {E : CBEnv} {ns : List Label} (hnd : ns.Nodup) {ess : List (List Edge)}
    (h : List.Forall₂ (fun n es => es.Nodup ∧ ∀ e ∈ es, e.2 = n ∧ e.1 ∈ E.struct.labels ∧ e.1 ≠ n) ns ess) :
    ess.flatten.Nodup ∧ ∀ e ∈ ess.flatten, e.1 ∈ E.struct.labels ∧ e.2 ∈ ns ∧ e.1 ≠ e.2 := by
  induction h with
  | nil => simp
  | @cons n es ns ess h1 h2 ih =>
    obtain ⟨hn, hnd'⟩ := List.nodup_cons.1 hnd
    obtain ⟨i1, i2⟩ := ih hnd'
    rw [List.flatten_cons]
    refine ⟨List.nodup_append.2 ⟨h1.1, i1, ?_⟩, ?_⟩
    · rintro e he e' he' rfl
      exact hn ((h1.2 e he).1 ▸ (i2 e he').2.1)
    · intro e he
      rcases List.mem_append.1 he with he | he
      · obtain ⟨k1, k2, k3⟩ := h1.2 e he
        exact ⟨k2, by rw [k1]; exact List.mem_cons_self, by rw [k1]; exact k3⟩
      · obtain ⟨k1, k2, k3⟩ := i2 e he
        exact ⟨k1, List.mem_cons_of_mem _ k2, k3⟩

theorem ctpcSeqLoop_shape {E : CBEnv} (hw : WFStructure E.struct) (ns : List Label) (st : CBState) {ess : List (List Edge)}
    (h : (E.ctpcSeqLoop ns st).1 = .ok ess) :
    List.Forall₂ (fun n es => es.Nodup ∧ ∀ e ∈ es, e.2 = n ∧ e.1 ∈ E.struct.labels ∧ e.1 ≠ n) ns ess := by
  induction ns generalizing st ess with
  | nil =>
    simp only [CBEnv.ctpcSeqLoop, Except.ok.injEq] at h
    subst h; exact .nil
  | cons n ns ih =>
    rw [CBEnv.ctpcSeqLoop] at h
    rcases ho : E.optimize st n with ⟨r, st1⟩
    rw [ho] at h
    cases r with
    | error e => simp at h
    | ok es =>
      simp only at h
      rcases hl : E.ctpcSeqLoop ns st1 with ⟨r2, st2⟩
      rw [hl] at h
      cases r2 with
      | error e => simp at h
      | ok ess' =>
        simp only [Except.ok.injEq] at h
        subst h
        exact .cons (search_edges_into_child hw ho) (ih st1 (by rw [hl]))

theorem mapM_forall₂ {α β : Type} {f : α → Py β} {P : α → β → Prop} {l : List α} {out : List β} (h : l.mapM f = .ok out)
    (hP : ∀ a ∈ l, ∀ b, f a = .ok b → P a b) : List.Forall₂ P l out := by
  induction l generalizing out with
  | nil => simp only [List.mapM_nil] at h; cases h; exact .nil
  | cons a l ih =>
    rw [List.mapM_cons] at h
    cases ha : f a with
    | error e => rw [ha] at h; cases h
    | ok b =>
      cases hl : l.mapM f with
      | error e => rw [ha, hl] at h; cases h
      | ok bs =>
        rw [ha, hl] at h
        cases h
        exact .cons (hP a List.mem_cons_self b ha) (ih hl (fun x hx => hP x (List.mem_cons_of_mem _ hx)))

/-- C218.  Constraint-based estimation, sequential or with workers finishing in whatever order, from whatever state earlier
(possibly failed) estimations left the estimator in, with whatever data and whatever the tests answer: if it returns, the
result is a list of edges without repetition, each between two different variables of the structure. -/
theorem constraint_estimation_is_network {E : CBEnv} (hw : WFStructure E.struct) {st : CBState} {es : List Edge}
    (h : (E.ctpcSequential st).1 = .ok es ∨ ∃ order, (E.ctpcParallel st order).1 = .ok es) :
    es.Nodup ∧ ∀ e ∈ es, e.1 ∈ E.struct.labels ∧ e.2 ∈ E.struct.labels ∧ e.1 ≠ e.2 := by
  rcases h with h | ⟨order, h⟩
  · unfold CBEnv.ctpcSequential at h
    rcases hl : E.ctpcSeqLoop E.struct.labels st with ⟨r, st1⟩
    rw [hl] at h
    cases r with
    | error e => simp at h
    | ok ess =>
      simp only [Except.ok.injEq] at h
      subst h
      exact flatten_shape hw.nodup (ctpcSeqLoop_shape hw _ st (by rw [hl]))
  · unfold CBEnv.ctpcParallel at h
    dsimp only at h
    have key : ∀ x : Py (List (List Edge)), (x >>= fun ess => (pure ess.flatten : Py (List Edge))) = .ok es →
        ∃ ess, x = .ok ess ∧ ess.flatten = es := by
      intro x hx
      cases x with
      | error e => cases hx
      | ok ess => cases hx; exact ⟨ess, rfl, rfl⟩
    obtain ⟨ess, hm, rfl⟩ := key _ h
    · refine flatten_shape hw.nodup (mapM_forall₂ hm ?_)
      intro n _ b hb
      cases hlk : (order.map (fun n => (n, (E.optimize st n).1))).lookup n with
      | none => rw [hlk] at hb; cases hb
      | some r =>
        rw [hlk] at hb
        simp only at hb
        subst hb
        have hmem : (n, (.ok b : Py (List Edge))) ∈ order.map (fun n => (n, (E.optimize st n).1)) := by
          clear hm h
          induction order with
          | nil => simp at hlk
          | cons o os ih =>
            rw [List.map_cons, List.lookup_cons] at hlk
            by_cases hno : n = o
            · subst hno
              simp only [beq_self_eq_true, Option.some.injEq] at hlk
              rw [List.map_cons, hlk]; exact List.mem_cons_self
            · have : (n == o) = false := by simpa using hno
              rw [this] at hlk
              exact List.mem_cons_of_mem _ (ih hlk)
        obtain ⟨o, _, ho⟩ := List.mem_map.1 hmem
        simp only [Prod.mk.injEq] at ho
        obtain ⟨rfl, ho⟩ := ho
        rcases hopt : E.optimize st o with ⟨r, st1⟩
        rw [hopt] at ho
        simp only at ho
        subst ho
        exact search_edges_into_child hw hopt

/-- C218.  With tests that are right about a network over the variables (C112), the list returned has exactly the edges of
that network, each once. -/
theorem constraint_based_recovers_exactly {E : CBEnv} (hw : WFStructure E.struct) (hnd : E.struct.indexes.Nodup)
    (hidx : ∀ i ∈ E.struct.indexes, i < E.struct.total) (htot : E.tot = E.struct.total)
    {net : List Edge} (hnet : ∀ e ∈ net, e.1 ∈ E.struct.labels ∧ e.2 ∈ E.struct.labels ∧ e.1 ≠ e.2) (hnn : net.Nodup)
    (hO : PerfectTests E (fun p child => (p, child) ∈ net)) {known : List Edge} (hk : ∀ e ∈ known, e ∈ net)
    {m : List (List Bool)} (hm : buildRemovable E.struct E.tot known = .ok m) :
    ∃ es, es.Perm net ∧ (E.ctpcSequential ⟨[], m⟩).1 = .ok es ∧
      ∀ order : List Label, order.Perm E.struct.labels → (E.ctpcParallel ⟨[], m⟩ order).1 = .ok es := by
  obtain ⟨es, h1, h2, h3⟩ := constraint_based_recovers hw hnd hidx htot hO (fun e he => hk e he) hm
  obtain ⟨s1, s2⟩ := constraint_estimation_is_network hw (.inl h1)
  refine ⟨es, (List.perm_ext_iff_of_nodup s1 hnn).2 ?_, h1, h2⟩
  rintro ⟨p, c⟩
  constructor
  · intro he
    obtain ⟨a, b, c'⟩ := s2 _ he
    exact (h3 p c a b c').1 he
  · intro he
    obtain ⟨a, b, c'⟩ := hnet _ he
    exact (h3 p c a b c').2 he

namespace Demo

/-- The example of C112: exactly the edge `B → A` is returned. -/
example : (oracleEnv.ctpcSequential ⟨[], allTrue⟩).1 = .ok [("B", "A")] := by
  have hP : PerfectTests oracleEnv (fun p child => (p, child) ∈ [("B", "A")]) := by
    have : (fun p child : Label => (p, child) ∈ [("B", "A")]) = fun p child => p = "B" ∧ child = "A" := by
      funext p child; simp
    rw [this]; exact oracleEnv_perfect
  obtain ⟨es, h1, h2, -⟩ := constraint_based_recovers_exactly (E := oracleEnv) (known := []) (m := allTrue)
    (net := [("B", "A")]) struct3_wf
    (by change struct3.indexes.Nodup; decide) (by change ∀ i ∈ struct3.indexes, i < 3; decide) rfl
    (by change ∀ e ∈ [("B", "A")], e.1 ∈ struct3.labels ∧ e.2 ∈ struct3.labels ∧ e.1 ≠ e.2; decide) (by decide) hP (by simp) rfl
  rw [h2, List.perm_singleton.1 h1]

end Demo

end PyCTBN
