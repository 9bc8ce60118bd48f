import Verif.Props.CtpcDemo
import Verif.Lemmas.Combos
import Verif.Props.Params
import Mathlib.Data.Nat.Choose.Sum
import Mathlib.Algebra.BigOperators.Intervals

/-!
# Constraint-based structure search (C26–C38)
-/

namespace PyCTBN
open Spec

/-! ## C26: the cache -/

theorem sinceClear_append {α : Type} (ops : List (Cache.Op α)) (op : Cache.Op α) :
    sinceClear (ops ++ [op]) = match op with | .clear => [] | _ => sinceClear ops ++ [op] := by
  unfold sinceClear
  rw [List.foldl_append]
  cases op <;> rfl

theorem firstPut_append {α : Type} (K : Finset Label) (a b : List (Cache.Op α)) :
    firstPut K (a ++ b) = (firstPut K a).or (firstPut K b) := by
  induction a with
  | nil => simp [firstPut]
  | cons o a ih =>
    cases o with
    | put k v =>
      simp only [List.cons_append, firstPut]
      split
      · simp
      · exact ih
    | find k => exact ih
    | clear => exact ih

/-- C26.  After any sequence of calls on a new cache, `find(S)` returns the value of the first `put` with an equal set since
the last `clear`, `None` if there is none. -/
theorem cache_first_write_wins {α : Type} (ops : List (Cache.Op α)) (S : List Label) :
    Cache.find (ops.foldl Cache.apply []) S = firstPut S.toFinset (sinceClear ops) := by
  induction ops using List.reverseRecOn with
  | nil => rfl
  | append_singleton ops op ih =>
    rw [List.foldl_append, sinceClear_append]
    simp only [List.foldl_cons, List.foldl_nil]
    cases op with
    | clear => rfl
    | find k =>
      simp only [Cache.apply]
      rw [firstPut_append, ih]; simp [firstPut]
    | put k v =>
      simp only [Cache.apply]
      rw [firstPut_append, ← ih]
      unfold Cache.find Cache.put
      rw [List.find?_append]
      cases h : List.find? (fun e => sameSet e.1 S) (ops.foldl Cache.apply []) with
      | some e => simp
      | none =>
        simp only [Option.none_or, Option.map_none, firstPut]
        by_cases hk : k.toFinset = S.toFinset
        · rw [if_pos hk, List.find?_cons_of_pos (p := fun e : List Label × α => sameSet e.1 S) (sameSet_iff.2 hk)]; rfl
        · rw [if_neg hk, List.find?_cons_of_neg (p := fun e : List Label × α => sameSet e.1 S)
            (by rw [sameSet_iff]; exact hk)]; rfl

example : Cache.find ([.put ["a"] 0, .clear, .put ["a", "b"] 1, .put ["b", "a", "b"] 2, .find ["c"]].foldl Cache.apply [])
    ["b", "a"] = some 1 := by decide

/-! ## C27: caching changes nothing -/

/-- C27.  Processing a child from an empty cache gives the same result, the same exception and the same removable-edges
matrix as processing it with every test run on an empty cache; and the cache is empty again afterwards. -/
theorem search_equals_uncached_search {E : CBEnv} (hw : WFStructure E.struct) {child : Label}
    (hc : child ∈ E.struct.labels) (m : List (List Bool)) :
    (E.optimize ⟨[], m⟩ child).1 = (uncachedOptimize E m child).1 ∧
      (E.optimize ⟨[], m⟩ child).2.removable = (uncachedOptimize E m child).2 ∧
      (∀ es, (E.optimize ⟨[], m⟩ child).1 = .ok es → (E.optimize ⟨[], m⟩ child).2.cache = []) :=
  CBEnv.optimize_sim hw hc m

theorem Spec.ValidCall.args {E : CBEnv} (hw : WFStructure E.struct) {child : Label} (hc : child ∈ E.struct.labels) {k : TestCall}
    (h : ValidCall E child k) : E.TestArgs k.parent child k.sepSet :=
  ⟨hw, h.parent_known, hc, h.sep_known, h.parent_ne, h.parent_notin, h.child_notin⟩

theorem CBEnv.completeTest_eq (E : CBEnv) (st : CBState) (p child : Label) (S : List Label) (c i j : Nat) :
    E.completeTest st p child S c i j = ((match (E.verdict st.cache p child S c).1 with
      | .error e => .error e
      | .ok .accept => .ok true
      | .ok .reject => .ok false
      | .ok .rejectMark => match setFalse st.removable i j with
        | .error e => .error e
        | .ok _ => .ok false), ⟨(E.verdict st.cache p child S c).2, match (E.verdict st.cache p child S c).1 with
          | .ok .rejectMark => match setFalse st.removable i j with
            | .error _ => st.removable
            | .ok m => m
          | _ => st.removable⟩) := by
  unfold CBEnv.completeTest
  generalize E.verdict st.cache p child S c = r
  obtain ⟨r1, c1⟩ := r
  cases r1 with
  | error e => rfl
  | ok v =>
    cases v with
    | accept => rfl
    | reject => rfl
    | rejectMark => simp only; cases setFalse st.removable i j <;> rfl

theorem afterTests_coherent {E : CBEnv} (hw : WFStructure E.struct) {child : Label} (hc : child ∈ E.struct.labels)
    (ks : List TestCall) (hks : ∀ k ∈ ks, ValidCall E child k) (st : CBState) (h : E.Coherent child st.cache) :
    E.Coherent child (afterTests E child st ks).cache := by
  induction ks generalizing st with
  | nil => exact h
  | cons k ks ih =>
    refine ih (fun x hx => hks x (by simp [hx])) _ ?_
    simp only [CBEnv.completeTest_eq]
    exact (CBEnv.verdict_spec ((hks k (by simp)).args hw hc) h _).coherent

/-- C27, for tests called directly.  Whatever tests were run before for the same child, starting from an empty cache, a test
either answers exactly as it would with an empty cache (on the same removable-edges matrix), or fails with the
unbound-variable error of C28. -/
theorem test_answers_as_with_empty_cache {E : CBEnv} (hw : WFStructure E.struct) {child : Label}
    (hc : child ∈ E.struct.labels) (m : List (List Bool)) (history : List TestCall)
    (hh : ∀ k ∈ history, ValidCall E child k) {k : TestCall} (hk : ValidCall E child k) :
    let st := afterTests E child ⟨[], m⟩ history
    let now := (E.completeTest st k.parent child k.sepSet k.childStates k.parentIndx k.childIndx).1
    let fresh := (E.completeTest ⟨[], st.removable⟩ k.parent child k.sepSet k.childStates k.parentIndx k.childIndx).1
    now = fresh ∨ now = .error .unboundLocalError := by
  dsimp only
  have hco := afterTests_coherent hw hc history hh ⟨[], m⟩ CBEnv.Coherent.nil
  have ha := hk.args hw hc
  rcases (CBEnv.verdict_spec ha hco k.childStates).answer with h | ⟨h, _⟩
  · left
    rw [CBEnv.completeTest_eq, CBEnv.completeTest_eq]
    simp only [h, CBEnv.verdict_nil ha]
  · right
    rw [CBEnv.completeTest_eq]
    simp only [h]

namespace Demo
example : WFStructure env.struct ∧ "A" ∈ env.struct.labels ∧
    ∀ k ∈ [(⟨"B", [], 2, 1, 0⟩ : TestCall), ⟨"B", ["C"], 2, 1, 0⟩], ValidCall env "A" k := by
  refine ⟨struct3_wf, by decide, ?_⟩
  intro k hk
  simp only [List.mem_cons, List.not_mem_nil, or_false] at hk
  rcases hk with rfl | rfl <;> constructor <;> decide
end Demo

/-! ## C28: no unbound intermediate result -/

namespace CBEnv
variable {E : CBEnv}

theorem noUB_uncachedTest (hw : WFStructure E.struct) (h2 : ∀ c a b th, NoUB (E.twoCim c a b th)) {child p : Label} {c : Nat}
    {S : List Label} (ha : E.TestArgs p child S) (m : List (List Bool)) : NoUB ((uncached E child c).test p S m).1 := by
  obtain ⟨i, _, hi⟩ := getNodeIndx_mem hw ha.p_mem
  obtain ⟨j, _, hj⟩ := getNodeIndx_mem hw ha.child_mem
  rw [test_uncached hi hj]
  have hv : NoUB (freshVerdict E child c p S) := by
    unfold freshVerdict; rw [verdict_nil ha]; exact noUB_pureVerdict h2 _ _ _ _
  cases h : freshVerdict E child c p S with
  | error e => rw [h] at hv; simpa [NoUB] using hv
  | ok v =>
    cases v with
    | accept => exact NoUB.ok _
    | reject => exact NoUB.ok _
    | rejectMark =>
      simp only
      have := noUB_setFalse m i j
      cases hs : setFalse m i j with
      | error e => rw [hs] at this; simpa [NoUB] using this
      | ok m' => exact NoUB.ok _

theorem noUB_subsetLoop {σ : Type} {T : CBTest σ} (p : Label) (Ss : List (List Label))
    (hT : ∀ S ∈ Ss, ∀ s, NoUB (T.test p S s).1) (s : σ) : NoUB (subsetLoop T p Ss s).1 := by
  induction Ss generalizing s with
  | nil => exact NoUB.ok _
  | cons S Ss ih =>
    have := hT S (by simp) s
    unfold subsetLoop
    revert this
    generalize T.test p S s = r
    obtain ⟨r1, s1⟩ := r
    intro h
    cases r1 with
    | error e => simpa [NoUB] using h
    | ok v => cases v with
      | true => exact NoUB.ok _
      | false => exact ih (fun S hS => hT S (by simp [hS])) s1

theorem noUB_visit {σ : Type} {T : CBTest σ} {u : List Label} (hf : ∀ p s, NoUB (T.flag p s))
    (hT : ∀ p ∈ u, ∀ S, S.Sublist (u.erase p) → ∀ s, NoUB (T.test p S s).1) (b : Nat) {p : Label} (hp : p ∈ u) (s : σ) :
    NoUB (visit T b u p s).1 := by
  unfold visit
  have := hf p s
  cases h : T.flag p s with
  | error e => rw [h] at this; simpa [NoUB] using this
  | ok v =>
    cases v with
    | false => exact NoUB.ok _
    | true =>
      simp only
      rw [subSetsOfSize_of_mem hp]
      exact noUB_subsetLoop p _ (fun S hS => hT p hp S (mem_combos.1 hS).1) s

theorem erase_erase_sublist {u S : List Label} {p q : Label} (h : S.Sublist ((u.erase q).erase p)) : S.Sublist (u.erase p) := by
  refine h.trans ?_
  rw [List.erase_comm]
  exact List.erase_sublist

theorem noUB_inner' {σ : Type} {T : CBTest σ} (hf : ∀ p s, NoUB (T.flag p s)) (child : Label) (b : Nat) (u : List Label)
    (g : NetworkGraph) (idx : Nat) (s : σ) (hT : ∀ p ∈ u, ∀ S, S.Sublist (u.erase p) → ∀ s, NoUB (T.test p S s).1) :
    NoUB (innerLoop T child b u g idx s).1 ∧ ∀ v s', innerLoop T child b u g idx s = (.ok v, s') →
      ∀ p ∈ v.1, ∀ S, S.Sublist (v.1.erase p) → ∀ s, NoUB (T.test p S s).1 := by
  fun_induction innerLoop T child b u g idx s with
  | case1 u g idx s hlt e s1 hv =>
    have := noUB_visit hf hT b (List.getElem_mem hlt) s
    rw [hv] at this
    exact ⟨by simpa [NoUB] using this, fun v s' h => by simp at h⟩
  | case2 u g idx s hlt s1 hv ih =>
    refine ih (fun p hp S hS => hT p (List.erase_subset hp) S (erase_erase_sublist hS))
  | case3 u g idx s hlt s1 hv ih => exact ih hT
  | case4 u g idx s hlt =>
    refine ⟨NoUB.ok _, fun v s' h => ?_⟩
    simp only [Prod.mk.injEq, Except.ok.injEq] at h
    obtain ⟨rfl, _⟩ := h
    exact hT

theorem noUB_outer' {σ : Type} {T : CBTest σ} (hf : ∀ p s, NoUB (T.flag p s)) (child : Label) (b : Nat) (u : List Label)
    (g : NetworkGraph) (s : σ) (hT : ∀ p ∈ u, ∀ S, S.Sublist (u.erase p) → ∀ s, NoUB (T.test p S s).1) :
    NoUB (outerLoop T child b u g s).1 := by
  fun_induction outerLoop T child b u g s with
  | case1 b u g s hlt e s1 hv =>
    have := (noUB_inner' hf child b u g 0 s hT).1
    rw [hv] at this; simpa [NoUB] using this
  | case2 b u g s hlt u' g' s1 hv ih => exact ih ((noUB_inner' hf child b u g 0 s hT).2 _ _ hv)
  | case3 => exact NoUB.ok _

theorem noUB_flag (child : Label) (c : Nat) (p : Label) (m : List (List Bool)) : NoUB ((uncached E child c).flag p m) :=
  (noUB_indx _ _).bind (fun _ _ => (noUB_indx _ _).bind (fun _ _ => noUB_getFlag _ _ _))

end CBEnv

/-- C28 (what holds).  The search for a child, started with an empty cache, never fails with an unbound-variable error,
whatever the data, the prior knowledge and the two-CIM test (provided that test itself does not raise this error). -/
theorem search_never_unbound_partial {E : CBEnv} (hw : WFStructure E.struct) (h2 : ∀ c a b th, NoUB (E.twoCim c a b th))
    {child : Label} (hc : child ∈ E.struct.labels) (m : List (List Bool)) :
    (E.optimize ⟨[], m⟩ child).1 ≠ .error .unboundLocalError := by
  rw [(CBEnv.optimize_sim hw hc m).1]
  obtain ⟨c, _, hcs⟩ := getStatesNumber_mem hw hc
  unfold uncachedOptimize
  rw [hcs]
  simp only
  have := CBEnv.noUB_outer' (T := uncached E child c) (CBEnv.noUB_flag child c) child 0 (E.others child) (E.startGraph child) m (by
    intro p hp S hS s
    have hp' := CBEnv.others_mem.1 hp
    refine CBEnv.noUB_uncachedTest hw h2 ⟨hw, hp'.1, hc, fun q hq => ?_, hp'.2, fun h => ?_, fun h => ?_⟩ s
    · exact (CBEnv.others_mem.1 (List.erase_subset (hS.subset hq))).1
    · exact (CBEnv.others_nodup hw child).not_mem_erase (hS.subset h)
    · exact (CBEnv.others_mem.1 (List.erase_subset (hS.subset h))).2 rfl)
  revert this
  generalize outerLoop (uncached E child c) child 0 (E.others child) (E.startGraph child) m = r
  obtain ⟨r1, s1⟩ := r
  intro h
  cases r1 with
  | error e => simpa [NoUB] using h
  | ok v => simp

/-- C28 is false of direct calls, always: after an answered test of `p` given `{q}`, the test of `q` given `{p}` needs the
graph built in the branch it skips, unless the statistics given `{p}` happen to be cached. -/
theorem direct_test_unbound {E : CBEnv} (hw : WFStructure E.struct) {child p q : Label} (hc : child ∈ E.struct.labels)
    (hp : p ∈ E.struct.labels) (hq : q ∈ E.struct.labels) (hpc : p ≠ child) (hqc : q ≠ child) (hpq : p ≠ q)
    (m : List (List Bool)) (c i j : Nat) {b : Bool} {st : CBState}
    (h : E.completeTest ⟨[], m⟩ p child [q] c i j = (.ok b, st)) :
    (E.completeTest st q child [p] c j i).1 = .error .unboundLocalError := by
  have ha : E.TestArgs p child [q] := ⟨hw, hp, hc, by simpa using hq, hpc, by simpa using hpq, by simpa using Ne.symm hqc⟩
  have hs := CBEnv.verdict_spec ha CBEnv.Coherent.nil c
  rw [CBEnv.completeTest_eq] at h
  simp only [Prod.mk.injEq] at h
  obtain ⟨h1, rfl⟩ := h
  rw [CBEnv.completeTest_eq]
  simp only
  have hok : ∃ v, (E.verdict [] p child [q] c).1 = .ok v := by
    cases hv : (E.verdict [] p child [q] c).1 with
    | error e => rw [hv] at h1; cases h1
    | ok v => exact ⟨v, rfl⟩
  obtain ⟨k1, k2⟩ := hs.both hok
  set cache := (E.verdict [] p child [q] c).2
  have f1 : ∃ v, cache.find (q :: [p]) = some v := by
    cases hf : cache.find (q :: [p]) with
    | some v => exact ⟨v, rfl⟩
    | none =>
      refine absurd ?_ (Cache.find_none.1 hf)
      have : ([q, p] : List Label).toFinset = [p, q].toFinset := by ext x; simp [or_comm]
      rw [this]; exact k1
  have f2 : cache.find [p] = none := by
    rw [Cache.find_none]
    intro hh
    rcases hs.only _ hh with h | h | h
    · exact CBEnv.not_has_nil h
    · have : q ∈ ([p] : List Label).toFinset := by rw [h]; simp
      simp only [List.mem_toFinset, List.mem_singleton] at this
      exact hpq this.symm
    · have : p ∈ ([q] : List Label).toFinset := by rw [← h]; simp
      simp only [List.mem_toFinset, List.mem_singleton] at this
      exact hpq this
  obtain ⟨v, f1⟩ := f1
  have : (E.verdict cache q child [p] c).1 = .error .unboundLocalError := by
    unfold CBEnv.verdict CBEnv.withParent
    rw [f1]
    simp only
    unfold CBEnv.withoutParent
    rw [f2]
    rfl
  rw [this]

namespace Demo
/-- The test of `B` and then of `C` as in the theorem. -/
example : ∃ b st, env.completeTest ⟨[], allTrue⟩ "B" "A" ["C"] 2 1 0 = (.ok b, st) ∧
    (env.completeTest st "C" "A" ["B"] 2 2 0).1 = .error .unboundLocalError :=
  ⟨false, _, rfl, by decide +kernel⟩
example : ∀ c a b th, NoUB (env.twoCim c a b th) := fun _ _ _ _ => NoUB.ok _
end Demo

/-! ## C29: nothing leaks from one child to the next -/

theorem optimize_clears {E : CBEnv} {st st' : CBState} {child : Label} {es : List Edge}
    (h : E.optimize st child = (.ok es, st')) : st'.cache = [] := by
  unfold CBEnv.optimize at h
  cases hc : E.struct.getStatesNumber child with
  | error e => rw [hc] at h; simp at h
  | ok c =>
    rw [hc] at h
    simp only at h
    revert h
    generalize outerLoop (E.calls child c) child 0 (E.others child) (E.startGraph child) st = r
    obtain ⟨r1, s1⟩ := r
    intro h
    cases r1 with
    | error e => simp at h
    | ok v =>
      obtain ⟨u, g⟩ := v
      simp only [Prod.mk.injEq] at h
      rw [← h.2]; rfl

/-- C29 (what holds).  Within one call of `ctpc_algorithm` on a new estimator, whenever a child is reached, that is, after
all children before it were processed without exception, the cache is empty: the search for the child is the uncached one.
(An exception in an earlier child ends the call.) -/
theorem no_leak_between_children_partial {E : CBEnv} (before : List Label) (m : List (List Bool))
    {done : List (List Edge)} {st : CBState} (h : E.ctpcSeqLoop before ⟨[], m⟩ = (.ok done, st)) : st.cache = [] := by
  have key : ∀ (ns : List Label) (st₀ : CBState) (done : List (List Edge)) (st : CBState), st₀.cache = [] →
      E.ctpcSeqLoop ns st₀ = (.ok done, st) → st.cache = [] := by
    intro ns
    induction ns with
    | nil =>
      intro st₀ done st h0 h
      simp only [CBEnv.ctpcSeqLoop, Prod.mk.injEq] at h
      rw [← h.2]; exact h0
    | cons n ns ih =>
      intro st₀ done st h0 h
      rw [CBEnv.ctpcSeqLoop] at h
      cases ho : E.optimize st₀ n with
      | mk r1 s1 =>
        rw [ho] at h
        cases r1 with
        | error e => simp at h
        | ok es =>
          simp only at h
          cases hl : E.ctpcSeqLoop ns s1 with
          | mk r2 s2 =>
            rw [hl] at h
            cases r2 with
            | error e => simp at h
            | ok ess =>
              simp only [Prod.mk.injEq] at h
              rw [← h.2]
              exact ih s1 ess s2 (optimize_clears ho) hl
  exact key before ⟨[], m⟩ done st rfl h

/-- A child for which the statement above speaks. -/
example : ∃ done st, Demo.env.ctpcSeqLoop ["A", "B"] ⟨[], Demo.allTrue⟩ = (.ok done, st) := by
  rw [CBEnv.seqLoop_eq_F]; exact ⟨[[("B", "A")], [("A", "B")]], _, rfl⟩

/-- C29 is false after an exception: processing `A` fails (its statistics given the three-valued `C` cannot be estimated)
and leaves its statistics behind, keyed by parent sets only; processing `B` on the same estimator then fails too, although
on an empty cache it returns the known edge. -/
theorem leak_after_exception :
    ∃ (E : CBEnv) (m : List (List Bool)), WFStructure E.struct ∧ E.struct.indexes.Nodup ∧
      buildRemovable E.struct E.tot [("C", "B")] = .ok m ∧ DataOK E.struct E.traj ∧
      (E.optimize ⟨[], m⟩ "A").1 = .error .valueError ∧
      (E.optimize (E.optimize ⟨[], m⟩ "A").2 "B").1 = .error .valueError ∧
      (E.optimize ⟨[], (E.optimize ⟨[], m⟩ "A").2.removable⟩ "B").1 = .ok [("C", "B")] := by
  refine ⟨Demo.envMixed, Demo.knownCB, ⟨by decide, rfl, rfl⟩, by decide, by decide, ?_, ?_, ?_, ?_⟩
  · exact dataOK_of_check _ _ ⟨by decide, rfl, rfl⟩ rfl rfl (by decide) (by decide) (by decide)
  · rw [CBEnv.optimize_eq_F]; decide +kernel
  · rw [CBEnv.optimize_eq_F, CBEnv.optimize_eq_F]; decide +kernel
  · rw [CBEnv.optimize_eq_F, CBEnv.optimize_eq_F]; decide +kernel

/-! ## C30: termination and shape of the result -/

/-- C30.  Whatever the state of the estimator (also with an arbitrary cache left behind) and whatever the two-CIM test
answers, if the search for a child returns, its result has no duplicates and consists of edges into the child from other
known variables.  (That the search always ends, with a result or an exception, is `search_tests_bounded` below together with
the fact that `CBEnv.optimize` is a total function.) -/
theorem search_edges_into_child {E : CBEnv} (hw : WFStructure E.struct) {st st' : CBState} {child : Label} {es : List Edge}
    (h : E.optimize st child = (.ok es, st')) :
    es.Nodup ∧ ∀ e ∈ es, e.2 = child ∧ e.1 ∈ E.struct.labels ∧ e.1 ≠ child := by
  unfold CBEnv.optimize at h
  cases hc : E.struct.getStatesNumber child with
  | error e => rw [hc] at h; simp at h
  | ok c =>
    rw [hc] at h
    simp only at h
    cases hr : outerLoop (E.calls child c) child 0 (E.others child) (E.startGraph child) st with
    | mk r1 s1 =>
      rw [hr] at h
      cases r1 with
      | error e => simp at h
      | ok v =>
        obtain ⟨u, g⟩ := v
        simp only [Prod.mk.injEq, Except.ok.injEq] at h
        obtain ⟨rfl, _⟩ := h
        obtain ⟨hs, hg⟩ := CBEnv.outerLoop_graph 0 _ _ st (CBEnv.others_nodup hw child) (CBEnv.startGraph_for child) hr
        refine ⟨CBEnv.edgesView_nodup hg.keysNodup hg.nodup, fun e he => ?_⟩
        have := (hg.mem e).1 ((CBEnv.mem_edgesView hg.keys).1 he)
        have hm := CBEnv.others_mem.1 (hs.subset this.2)
        exact ⟨this.1, hm.1, hm.2⟩

theorem subsetLoop_count {σ : Type} (T : CBTest σ) (p : Label) (Ss : List (List Label)) (s : σ × Nat) :
    (subsetLoop (counting T) p Ss s).2.2 ≤ s.2 + Ss.length := by
  induction Ss generalizing s with
  | nil => simp [subsetLoop]
  | cons S Ss ih =>
    have e : (counting T).test p S s = ((T.test p S s.1).1, ((T.test p S s.1).2, s.2 + 1)) := rfl
    rw [subsetLoop, e]
    cases (T.test p S s.1).1 with
    | error e => simp
    | ok v =>
      cases v with
      | true => simp
      | false =>
        have := ih ((T.test p S s.1).2, s.2 + 1)
        simp only [List.length_cons] at this ⊢
        omega

theorem visit_count {σ : Type} (T : CBTest σ) (b : Nat) (u : List Label) (p : Label) (s : σ × Nat) (N : Nat)
    (hN : u.length ≤ N + 1) (hp : p ∈ u) : (visit (counting T) b u p s).2.2 ≤ s.2 + N.choose b := by
  unfold visit
  cases (counting T).flag p s with
  | error e => simp
  | ok v =>
    cases v with
    | false => simp
    | true =>
      simp only
      rw [subSetsOfSize_of_mem hp]
      refine (subsetLoop_count T p _ s).trans ?_
      rw [combos_length]
      have : (u.erase p).length ≤ N := by rw [List.length_erase_of_mem hp]; omega
      exact Nat.add_le_add_left (Nat.choose_le_choose b this) _

theorem innerLoop_count {σ : Type} (T : CBTest σ) (child : Label) (b : Nat) (N : Nat) (u : List Label) (g : NetworkGraph)
    (idx : Nat) (s : σ × Nat) (hN : u.length ≤ N + 1) :
    (innerLoop (counting T) child b u g idx s).2.2 ≤ s.2 + (u.length - idx) * N.choose b := by
  fun_induction innerLoop (counting T) child b u g idx s with
  | case1 u g idx s hlt e s1 hv =>
    have := visit_count T b u _ s N hN (List.getElem_mem hlt)
    rw [hv] at this
    have h1 : N.choose b ≤ (u.length - idx) * N.choose b := Nat.le_mul_of_pos_left _ (by omega)
    simp only at this ⊢; omega
  | case2 u g idx s hlt s1 hv ih =>
    have := visit_count T b u _ s N hN (List.getElem_mem hlt)
    rw [hv] at this
    have hl := List.length_erase_of_mem (List.getElem_mem hlt)
    have h2 := ih (by omega)
    have e : u.length - idx = (u.erase u[idx]).length - idx + 1 := by omega
    rw [e, Nat.succ_mul]
    simp only at this; omega
  | case3 u g idx s hlt s1 hv ih =>
    have := visit_count T b u _ s N hN (List.getElem_mem hlt)
    rw [hv] at this
    have h2 := ih hN
    have e : u.length - idx = u.length - (idx + 1) + 1 := by omega
    rw [e, Nat.succ_mul]
    simp only at this; omega
  | case4 => simp

theorem outerLoop_count {σ : Type} (T : CBTest σ) (child : Label) (N : Nat) (b : Nat) (u : List Label) (g : NetworkGraph)
    (s : σ × Nat) (hN : u.length ≤ N + 1) :
    (outerLoop (counting T) child b u g s).2.2 ≤ s.2 + (N + 1) * ∑ i ∈ Finset.Ico b (N + 1), N.choose i := by
  fun_induction outerLoop (counting T) child b u g s with
  | case1 b u g s hlt e s1 hv =>
    have h1 := innerLoop_count T child b N u g 0 s hN
    rw [hv] at h1
    rw [Finset.sum_eq_sum_Ico_succ_bot (by omega), Nat.mul_add]
    have h2 : (u.length - 0) * N.choose b ≤ (N + 1) * N.choose b := Nat.mul_le_mul_right _ (by omega)
    simp only at h1 ⊢; omega
  | case2 b u g s hlt u' g' s1 hv ih =>
    have h1 := innerLoop_count T child b N u g 0 s hN
    rw [hv] at h1
    have hl := innerLoop_length _ _ _ _ _ _ _ hv
    have h3 := ih (by omega)
    rw [Finset.sum_eq_sum_Ico_succ_bot (show b < N + 1 by omega), Nat.mul_add]
    have h2 : (u.length - 0) * N.choose b ≤ (N + 1) * N.choose b := Nat.mul_le_mul_right _ (by omega)
    simp only at h1; omega
  | case3 => simp

/-- C30 (termination).  For a network of `n` variables the search for one child calls `complete_test` at most
`(n - 1) * 2 ^ (n - 2)` times, whatever the tests answer. -/
theorem search_tests_bounded {σ : Type} {E : CBEnv} (hw : WFStructure E.struct) {child : Label} (hc : child ∈ E.struct.labels)
    (T : CBTest σ) (s : σ) :
    (outerLoop (counting T) child 0 (E.others child) (E.startGraph child) (s, 0)).2.2 ≤
      (E.struct.labels.length - 1) * 2 ^ (E.struct.labels.length - 2) := by
  have hl : (E.others child).length = E.struct.labels.length - 1 := by
    have : E.others child = E.struct.labels.erase child := by rw [hw.nodup.erase_eq_filter]; unfold CBEnv.others; congr 1; funext x; rw [Bool.eq_iff_iff]; simp
    rw [this, List.length_erase_of_mem hc]
  rcases Nat.eq_zero_or_pos (E.others child).length with h0 | h0
  · have : E.others child = [] := List.length_eq_zero_iff.1 h0
    rw [this, outerLoop.eq_def]; simp
  · obtain ⟨N, hN⟩ : ∃ N, (E.others child).length = N + 1 := ⟨_, (Nat.succ_pred_eq_of_pos h0).symm⟩
    have := outerLoop_count T child N 0 (E.others child) (E.startGraph child) (s, 0) (by omega)
    have e1 : E.struct.labels.length - 1 = N + 1 := by omega
    have e2 : E.struct.labels.length - 2 = N := by omega
    rw [e1, e2, ← Nat.sum_range_choose, Finset.range_eq_Ico]
    simpa using this

/-- Counting does not change the search. -/
theorem counting_faithful {σ : Type} (T : CBTest σ) (child : Label) (b : Nat) (u : List Label) (g : NetworkGraph) (s : σ)
    (n : Nat) : (outerLoop (counting T) child b u g (s, n)).1 = (outerLoop T child b u g s).1 ∧
      (outerLoop (counting T) child b u g (s, n)).2.1 = (outerLoop T child b u g s).2 := by
  exact outerLoop_rel (T := counting T) (T' := T) (R := fun a b => a.1 = b)
    (fun p s t h => by subst h; rfl) (fun p S s t h => by subst h; exact ⟨rfl, rfl⟩) child b u g (s, n) s rfl

/-! ## C38: prior knowledge -/

theorem getFlag_replicate {n i j : Nat} : getFlag (List.replicate n (List.replicate n true)) i j =
    if i < n ∧ j < n then .ok true else .error .indexError := by
  unfold getFlag
  by_cases hi : i < n
  · rw [pyGet_of_lt (by simpa using hi)]
    simp only [List.getElem_replicate, Except.bind_ok']
    by_cases hj : j < n
    · rw [pyGet_of_lt (by simpa using hj)]; simp [hi, hj]
    · rw [pyGet_of_ge (by simpa using hj)]; simp [hj]
  · rw [pyGet_of_ge (by simpa using hi)]; simp [hi]

theorem foldlM_removable {s : Structure} (known : List Edge) (m₀ m : List (List Bool))
    (h : known.foldlM (fun m e => do
      let i ← s.getNodeIndx e.1
      let j ← s.getNodeIndx e.2
      setFalse m i j) m₀ = .ok m) :
    (∀ e ∈ known, ∃ i j v, s.getNodeIndx e.1 = .ok i ∧ s.getNodeIndx e.2 = .ok j ∧ getFlag m₀ i j = .ok v) ∧
    ∀ i j, ((∃ e ∈ known, s.getNodeIndx e.1 = .ok i ∧ s.getNodeIndx e.2 = .ok j) → getFlag m i j = .ok false) ∧
      ((¬ ∃ e ∈ known, s.getNodeIndx e.1 = .ok i ∧ s.getNodeIndx e.2 = .ok j) → getFlag m i j = getFlag m₀ i j) := by
  induction known generalizing m₀ with
  | nil =>
    simp only [List.foldlM_nil, Except.pure_eq_ok', Except.ok.injEq] at h
    subst h
    simp
  | cons e known ih =>
    rw [List.foldlM_cons] at h
    cases hi : s.getNodeIndx e.1 with
    | error x => rw [hi] at h; simp at h
    | ok a =>
      cases hj : s.getNodeIndx e.2 with
      | error x => rw [hi, hj] at h; simp at h
      | ok b =>
        rw [hi, hj] at h
        simp only [Except.bind_ok'] at h
        cases hs : setFalse m₀ a b with
        | error x => rw [hs] at h; simp at h
        | ok m1 =>
          rw [hs] at h
          simp only [Except.bind_ok'] at h
          obtain ⟨k1, k2⟩ := ih m1 h
          have hget := fun i j => setFalse_getFlag (a := i) (b := j) hs
          obtain ⟨v, hv⟩ := setFalse_ok_iff.1 ⟨m1, hs⟩
          refine ⟨fun f hf => ?_, fun i j => ⟨fun hex => ?_, fun hne => ?_⟩⟩
          · rcases List.mem_cons.1 hf with rfl | hf
            · exact ⟨a, b, v, hi, hj, hv⟩
            · obtain ⟨i, j, w, h1, h2, h3⟩ := k1 f hf
              rw [hget] at h3
              split at h3
              · rename_i hab; obtain ⟨rfl, rfl⟩ := hab; exact ⟨_, _, v, h1, h2, hv⟩
              · exact ⟨i, j, w, h1, h2, h3⟩
          · by_cases hex' : ∃ f ∈ known, s.getNodeIndx f.1 = .ok i ∧ s.getNodeIndx f.2 = .ok j
            · exact (k2 i j).1 hex'
            · rw [(k2 i j).2 hex', hget]
              obtain ⟨f, hf, h1, h2⟩ := hex
              rcases List.mem_cons.1 hf with rfl | hf
              · rw [hi] at h1; rw [hj] at h2
                injection h1 with h1; injection h2 with h2
                rw [if_pos ⟨h1.symm, h2.symm⟩]
              · exact absurd ⟨f, hf, h1, h2⟩ hex'
          · rw [(k2 i j).2 (fun ⟨f, hf, hh⟩ => hne ⟨f, by simp [hf], hh⟩), hget, if_neg]
            rintro ⟨rfl, rfl⟩
            exact hne ⟨e, by simp, hi, hj⟩

/-- C38.  If the removable-edges matrix is built, it is `n × n`, with `False` exactly at the index pairs of the known
edges. -/
theorem removable_matrix_exact {s : Structure} {n : Nat} {known : List Edge} {m : List (List Bool)}
    (h : buildRemovable s n known = .ok m) (i j : Nat) :
    ((∃ e ∈ known, s.getNodeIndx e.1 = .ok i ∧ s.getNodeIndx e.2 = .ok j) → getFlag m i j = .ok false) ∧
      ((¬ ∃ e ∈ known, s.getNodeIndx e.1 = .ok i ∧ s.getNodeIndx e.2 = .ok j) →
        getFlag m i j = if i < n ∧ j < n then .ok true else .error .indexError) := by
  have := (foldlM_removable known _ m h).2 i j
  rw [getFlag_replicate] at this
  exact this

/-- C38 (when it is built).  The constructor raises iff a known edge mentions an unknown label, or a label whose index is not
below the number of variables (which the importers never produce). -/
theorem removable_matrix_built_iff {s : Structure} (n : Nat) (known : List Edge) :
    (∃ m, buildRemovable s n known = .ok m) ↔
      ∀ e ∈ known, ∃ i j, s.getNodeIndx e.1 = .ok i ∧ s.getNodeIndx e.2 = .ok j ∧ i < n ∧ j < n := by
  constructor
  · rintro ⟨m, h⟩ e he
    obtain ⟨i, j, v, h1, h2, h3⟩ := (foldlM_removable known _ m h).1 e he
    rw [getFlag_replicate] at h3
    by_cases hij : i < n ∧ j < n
    · exact ⟨i, j, h1, h2, hij.1, hij.2⟩
    · rw [if_neg hij] at h3; cases h3
  · intro h
    unfold buildRemovable
    have hfull : ∀ i j, i < n → j < n → ∃ v, getFlag (List.replicate n (List.replicate n true)) i j = .ok v :=
      fun i j hi hj => ⟨true, by rw [getFlag_replicate, if_pos ⟨hi, hj⟩]⟩
    revert hfull
    generalize List.replicate n (List.replicate n true) = m₀
    intro hfull
    induction known generalizing m₀ with
    | nil => exact ⟨m₀, rfl⟩
    | cons e known ih =>
      obtain ⟨i, j, hi, hj, hin, hjn⟩ := h e (by simp)
      obtain ⟨m1, hm1⟩ := setFalse_ok_iff.2 (hfull i j hin hjn)
      rw [List.foldlM_cons, hi, hj]
      simp only [Except.bind_ok', hm1]
      refine ih (fun f hf => h f (by simp [hf])) m1 (fun a b ha hb => ?_)
      rw [setFalse_getFlag hm1]
      split
      · exact ⟨_, rfl⟩
      · exact hfull a b ha hb

/-- C38 (which exception): an unknown label gives `ValueError`. -/
theorem removable_matrix_unknown_label {s : Structure} {n : Nat} {a b : Label} (known : List Edge) (h : a ∉ s.labels) :
    buildRemovable s n ((a, b) :: known) = .error .valueError := by
  unfold buildRemovable
  rw [List.foldlM_cons]
  have : s.getNodeIndx a = .error .valueError := by
    unfold Structure.getNodeIndx; rw [pyIndex_of_not_mem h]; rfl
  simp only [this, Except.bind_error']

example : ∃ m, buildRemovable Demo.struct3 3 [("C", "B"), ("A", "B")] = .ok m ∧ getFlag m 2 1 = .ok false ∧
    getFlag m 1 2 = .ok true := ⟨_, rfl, by decide, by decide⟩

/-! ## C37: separating sets -/

/-- C37.  For a list without duplicates containing the parent, the separating sets of size `k` are exactly the sub-lists of
the other elements of that length, each generated once; every `k`-element set of other elements is one of them, and there
are `C(|u| - 1, k)`. -/
theorem separating_sets_exact {u : List Label} (hu : u.Nodup) {p : Label} (hp : p ∈ u) (k : Nat) :
    ∃ Ss, subSetsOfSize u k p = .ok Ss ∧ Ss.Nodup ∧ Ss.length = (u.length - 1).choose k ∧
      (∀ S, S ∈ Ss ↔ S.Sublist u ∧ p ∉ S ∧ S.length = k) ∧
      (∀ R : Finset Label, R ⊆ u.toFinset → p ∉ R → R.card = k → ∃ S ∈ Ss, S.toFinset = R) := by
  refine ⟨_, subSetsOfSize_of_mem hp, combos_nodup (hu.erase p), ?_, fun S => ?_, fun R hR hpR hk => ?_⟩
  · rw [combos_length, List.length_erase_of_mem hp]
  · rw [mem_combos]
    constructor
    · rintro ⟨h1, h2⟩
      exact ⟨h1.trans List.erase_sublist, fun h => hu.not_mem_erase (h1.subset h), h2⟩
    · rintro ⟨h1, h2, h3⟩
      refine ⟨?_, h3⟩
      have := h1.erase p
      rwa [List.erase_of_not_mem h2] at this
  · refine exists_combo (hu.erase p) (fun x hx => ?_) hk
    rw [List.mem_toFinset, hu.mem_erase_iff]
    exact ⟨fun h => hpR (h ▸ hx), List.mem_toFinset.1 (hR hx)⟩

/-- C37 (absent parent). -/
theorem separating_sets_raises {u : List Label} {p : Label} (hp : p ∉ u) (k : Nat) :
    subSetsOfSize u k p = .error .valueError := by
  simp [subSetsOfSize, pyRemove, hp]

example : subSetsOfSize ["a", "b", "c", "d"] 2 "c" = .ok [["a", "b"], ["a", "d"], ["b", "d"]] := by decide

/-! ## C31–C33: what the estimate says -/

theorem mapM_ok_mem {α β : Type} {f : α → Py β} {l : List α} {bs : List β} (h : l.mapM f = .ok bs) :
    List.Forall₂ (fun a b => f a = .ok b) l bs := by
  induction l generalizing bs with
  | nil => simp only [List.mapM_nil, Except.pure_eq_ok', Except.ok.injEq] at h; subst h; exact .nil
  | cons a l ih =>
    rw [List.mapM_cons] at h
    cases ha : f a with
    | error e => rw [ha] at h; simp at h
    | ok b =>
      rw [ha] at h
      cases hl : l.mapM f with
      | error e => rw [hl] at h; simp at h
      | ok bs' =>
        rw [hl] at h
        simp only [Except.bind_ok', Except.pure_eq_ok', Except.ok.injEq] at h
        subst h
        exact .cons ha (ih hl)

/-- The result of `ctpc_algorithm` is put together from independent searches. -/
theorem ctpc_seq_eq {E : CBEnv} (hw : WFStructure E.struct) (hnd : E.struct.indexes.Nodup) (m : List (List Bool)) :
    (E.ctpcSequential ⟨[], m⟩).1 = (E.struct.labels.mapM (fun n => (E.optimize ⟨[], m⟩ n).1)) >>= fun ess => .ok ess.flatten := by
  rw [← (CBEnv.seqLoop_eq hw hnd m E.struct.labels hw.nodup (fun n hn => hn) m (fun _ _ _ _ _ => rfl)).1]
  unfold CBEnv.ctpcSequential
  generalize E.ctpcSeqLoop E.struct.labels ⟨[], m⟩ = r
  obtain ⟨r1, s1⟩ := r
  cases r1 <;> rfl

theorem ctpc_result {E : CBEnv} (hw : WFStructure E.struct) (hnd : E.struct.indexes.Nodup) {m : List (List Bool)}
    {es : List Edge} (h : (E.ctpcSequential ⟨[], m⟩).1 = .ok es) {child : Label} (hc : child ∈ E.struct.labels) :
    ∃ esc st', E.optimize ⟨[], m⟩ child = (.ok esc, st') ∧ ∀ p, (p, child) ∈ es ↔ (p, child) ∈ esc := by
  rw [ctpc_seq_eq hw hnd] at h
  cases hm : E.struct.labels.mapM (fun n => (E.optimize ⟨[], m⟩ n).1) with
  | error e => rw [hm] at h; simp at h
  | ok ess =>
    rw [hm] at h
    simp only [Except.bind_ok', Except.ok.injEq] at h
    subst h
    have hf := mapM_ok_mem hm
    have key : ∀ (ls : List Label) (ess : List (List Edge)),
        List.Forall₂ (fun n es => (E.optimize ⟨[], m⟩ n).1 = .ok es) ls ess → ∀ p c, ((p, c) ∈ ess.flatten ↔
          ∃ esc, c ∈ ls ∧ (E.optimize ⟨[], m⟩ c).1 = .ok esc ∧ (p, c) ∈ esc) := by
      intro ls ess hf
      induction hf with
      | nil => intro p c; simp
      | @cons n es ls ess hn hf ih =>
        intro p c
        rw [List.flatten_cons, List.mem_append, ih p c]
        constructor
        · rintro (h | ⟨esc, h1, h2, h3⟩)
          · have := (search_edges_into_child hw (Prod.ext hn rfl : E.optimize ⟨[], m⟩ n = (.ok es, _))).2 _ h
            simp only at this
            obtain ⟨rfl, _⟩ := this
            exact ⟨es, by simp, hn, h⟩
          · exact ⟨esc, by simp [h1], h2, h3⟩
        · rintro ⟨esc, h1, h2, h3⟩
          rcases List.mem_cons.1 h1 with rfl | h1
          · rw [hn] at h2; injection h2 with h2; subst h2; exact Or.inl h3
          · exact Or.inr ⟨esc, h1, h2, h3⟩
    have hex : ∃ esc, (E.optimize ⟨[], m⟩ child).1 = .ok esc := by
      have : ∀ (ls : List Label) (ess : List (List Edge)),
          List.Forall₂ (fun n es => (E.optimize ⟨[], m⟩ n).1 = .ok es) ls ess → child ∈ ls →
            ∃ esc, (E.optimize ⟨[], m⟩ child).1 = .ok esc := by
        intro ls ess hf
        induction hf with
        | nil => intro h; simp at h
        | @cons n es ls ess hn hf ih =>
          intro h
          rcases List.mem_cons.1 h with rfl | h
          · exact ⟨_, hn⟩
          · exact ih h
      exact this _ _ hf hc
    obtain ⟨esc, hesc⟩ := hex
    refine ⟨esc, _, Prod.ext hesc rfl, fun p => ?_⟩
    rw [key _ _ hf p child]
    constructor
    · rintro ⟨esc', _, h2, h3⟩
      rw [hesc] at h2; injection h2 with h2; subst h2; exact h3
    · intro h; exact ⟨esc, hc, hesc, h⟩

theorem flag_iff_removableEdge {E : CBEnv} {child : Label} {c : Nat} {p : Label} {m : List (List Bool)} :
    (uncached E child c).flag p m = .ok true ↔ removableEdge E m p child := by
  simp only [uncached, CBEnv.calls, removableEdge]
  cases E.struct.getNodeIndx p with
  | error e => simp
  | ok i =>
    cases E.struct.getNodeIndx child with
    | error e => simp
    | ok j => simp

/-- What the search establishes about one pair of variables, in terms of the matrix it starts from. -/
theorem ctpc_run {E : CBEnv} (hw : WFStructure E.struct) (hnd : E.struct.indexes.Nodup) {m : List (List Bool)}
    {es : List Edge} (h : (E.ctpcSequential ⟨[], m⟩).1 = .ok es) {child : Label} (hc : child ∈ E.struct.labels) :
    ∃ c u m', E.struct.getStatesNumber child = .ok c ∧ (∀ p, (p, child) ∈ es ↔ p ∈ u) ∧
      CBEnv.RInv E child c (E.others child) m u.length u m' := by
  obtain ⟨esc, st', ho, hmem⟩ := ctpc_result hw hnd h hc
  obtain ⟨c, _, hcs⟩ := getStatesNumber_mem hw hc
  obtain ⟨u, hI, _, hu, _⟩ := CBEnv.optimize_run hw hc hcs ho
  refine ⟨c, u, _, hcs, fun p => ?_, hI⟩
  rw [hmem, hu]; simp

/-- C32.  An edge between two different known variables is missing from the estimate only if it was removable at the start
and some complete test of it, given a set of other variables, answered that they are independent. -/
theorem dropped_only_on_evidence {E : CBEnv} (hw : WFStructure E.struct) (hnd : E.struct.indexes.Nodup)
    {m : List (List Bool)} {es : List Edge} (h : (E.ctpcSequential ⟨[], m⟩).1 = .ok es) {p child : Label}
    (hp : p ∈ E.struct.labels) (hc : child ∈ E.struct.labels) (hne : p ≠ child) (hout : (p, child) ∉ es) :
    removableEdge E m p child ∧ ∃ c S, E.struct.getStatesNumber child = .ok c ∧ p ∉ S ∧ child ∉ S ∧
      (∀ q ∈ S, q ∈ E.struct.labels) ∧ freshVerdict E child c p S = .ok .accept := by
  obtain ⟨c, u, m', hcs, hu, hI⟩ := ctpc_run hw hnd h hc
  obtain ⟨h1, S, hS, hv⟩ := hI.removed p (CBEnv.others_mem.2 ⟨hp, hne⟩) (fun hpu => hout ((hu p).2 hpu))
  refine ⟨flag_iff_removableEdge.1 h1, c, S, hcs, fun hpS => ?_, fun hcS => ?_, fun q hq => ?_, hv⟩
  · exact (CBEnv.others_nodup hw child).not_mem_erase (hS.subset hpS)
  · exact (CBEnv.others_mem.1 (List.erase_subset (hS.subset hcS))).2 rfl
  · exact (CBEnv.others_mem.1 (List.erase_subset (hS.subset hq))).1

/-- C31.  Every known edge between different variables is in the estimate, whatever the data and the tests. -/
theorem known_edges_survive {E : CBEnv} (hw : WFStructure E.struct) (hnd : E.struct.indexes.Nodup) {known : List Edge}
    {m : List (List Bool)} (hm : buildRemovable E.struct E.tot known = .ok m) {es : List Edge}
    (h : (E.ctpcSequential ⟨[], m⟩).1 = .ok es) {e : Edge} (he : e ∈ known) (hne : e.1 ≠ e.2) : e ∈ es := by
  obtain ⟨i, j, h1, h2, _⟩ := (removable_matrix_built_iff E.tot known).1 ⟨m, hm⟩ e he
  have known_mem : ∀ {l : Label} {a : Nat}, E.struct.getNodeIndx l = .ok a → l ∈ E.struct.labels := by
    intro l a hl
    by_contra hcon
    unfold Structure.getNodeIndx at hl
    rw [pyIndex_of_not_mem hcon] at hl
    simp at hl
  by_contra hout
  obtain ⟨⟨i', j', k1, k2, k3⟩, _⟩ := dropped_only_on_evidence hw hnd h (known_mem h1) (known_mem h2) hne hout
  rw [(removable_matrix_exact hm i' j').1 ⟨e, he, k1, k2⟩] at k3
  cases k3

/-- C33.  An edge of the estimate was not removable from the start (known), or some complete test of it declared the data
too scarce (freezing it), or every complete test given a set of the other estimated parents answered that the two are
dependent. -/
theorem kept_only_if_dependent {E : CBEnv} (hw : WFStructure E.struct) (hnd : E.struct.indexes.Nodup)
    {m : List (List Bool)} {es : List Edge} (h : (E.ctpcSequential ⟨[], m⟩).1 = .ok es) {p child : Label}
    (hc : child ∈ E.struct.labels) (hin : (p, child) ∈ es) :
    ∃ c, E.struct.getStatesNumber child = .ok c ∧
      (¬ removableEdge E m p child ∨
       (∃ S, p ∉ S ∧ child ∉ S ∧ (∀ q ∈ S, q ∈ E.struct.labels) ∧ freshVerdict E child c p S = .ok .rejectMark) ∨
       ∀ R : Finset Label, (∀ q ∈ R, (q, child) ∈ es ∧ q ≠ p) →
        ∃ S : List Label, S.toFinset = R ∧ freshVerdict E child c p S = .ok .reject) := by
  obtain ⟨c, u, m', hcs, hu, hI⟩ := ctpc_run hw hnd h hc
  refine ⟨c, hcs, ?_⟩
  have hpu := (hu p).1 hin
  have hpo := hI.sub.subset hpu
  have hp := (CBEnv.others_mem.1 hpo).1
  have hun : u.Nodup := (CBEnv.others_nodup hw child).sublist hI.sub
  by_cases hr : removableEdge E m p child
  · right
    by_cases hf : (uncached E child c).flag p m' = .ok true
    · right
      intro R hR
      have hsub : R ⊆ (u.erase p).toFinset := by
        intro q hq
        rw [List.mem_toFinset, hun.mem_erase_iff]
        exact ⟨(hR q hq).2, (hu q).1 (hR q hq).1⟩
      obtain ⟨S, hS, hSR⟩ := exists_combo (hun.erase p) hsub rfl
      obtain ⟨h1, h2⟩ := mem_combos.1 hS
      refine ⟨S, hSR, hI.kept p hpu hf S h1 ?_⟩
      have := h1.length_le
      rw [List.length_erase_of_mem hpu] at this
      have := List.length_pos_of_mem hpu
      omega
    · left
      obtain ⟨i, j, hi, hj, hfl⟩ := hr
      rcases hI.marks i j with he | ⟨_, _, q, hq, hqi, S, hS, hv⟩
      · exfalso
        apply hf
        rw [flag_iff_removableEdge]
        exact ⟨i, j, hi, hj, he.trans hfl⟩
      · have : q = p := CBEnv.indx_inj hw hnd (CBEnv.others_mem.1 hq).1 hp hqi hi
        subst this
        refine ⟨S, fun hpS => ?_, fun hcS => ?_, fun x hx => ?_, hv⟩
        · exact (CBEnv.others_nodup hw child).not_mem_erase (hS.subset hpS)
        · exact (CBEnv.others_mem.1 (List.erase_subset (hS.subset hcS))).2 rfl
        · exact (CBEnv.others_mem.1 (List.erase_subset (hS.subset hx))).1
  · exact Or.inl hr

/-- The hypotheses of C31–C33 are met: with `C → A` known, the estimate keeps it, drops `C → B` and keeps `A → B`. -/
example : ∃ m es, buildRemovable Demo.env.struct Demo.env.tot [("C", "A")] = .ok m ∧
    (Demo.env.ctpcSequential ⟨[], m⟩).1 = .ok es ∧ ("C", "A") ∈ es ∧ ("C", "B") ∉ es ∧ ("A", "B") ∈ es := by
  refine ⟨_, [("B", "A"), ("C", "A"), ("A", "B"), ("A", "C"), ("B", "C")], rfl, ?_, by decide, by decide, by decide⟩
  rw [CBEnv.sequential_eq_F]; decide +kernel

/-! ## C34: parallel and sequential estimation -/

/-- C34.  With a process pool the outcome (edges, in the same order, or exception) is the sequential one, for every order in
which the workers complete their tasks and however many there are. -/
theorem parallel_equals_sequential {E : CBEnv} (hw : WFStructure E.struct) (hnd : E.struct.indexes.Nodup)
    (m : List (List Bool)) (order : List Label) (ho : order.Perm E.struct.labels) :
    (E.ctpcParallel ⟨[], m⟩ order).1 = (E.ctpcSequential ⟨[], m⟩).1 := by
  rw [ctpc_seq_eq hw hnd]
  unfold CBEnv.ctpcParallel
  simp only
  have : E.struct.labels.mapM (fun n => match (order.map (fun n => (n, (E.optimize ⟨[], m⟩ n).1))).lookup n with
      | some r => r
      | none => .error .blocked) = E.struct.labels.mapM (fun n => (E.optimize ⟨[], m⟩ n).1) := by
    apply mapM_congr'
    intro n hn
    have hno : n ∈ order := ho.mem_iff.2 hn
    have : (order.map (fun n => (n, (E.optimize ⟨[], m⟩ n).1))).lookup n = some (E.optimize ⟨[], m⟩ n).1 := by
      clear ho hn
      induction order with
      | nil => simp at hno
      | cons a l ih =>
        rw [List.map_cons, List.lookup_cons]
        by_cases h : n = a
        · subst h; simp
        · have hb : (n == a) = false := by simpa using h
          rw [hb]
          exact ih (by simpa [h] using hno)
    rw [this]
  exact congrArg (fun x : Py (List (List Edge)) => x >>= fun ess => Except.ok ess.flatten) this

theorem mapM_ok_iff {α β : Type} {f : α → Py β} {l : List α} : (∃ bs, l.mapM f = .ok bs) ↔ ∀ a ∈ l, ∃ b, f a = .ok b := by
  induction l with
  | nil => simp
  | cons a l ih =>
    rw [List.mapM_cons]
    cases ha : f a with
    | error e => simp [ha]
    | ok b =>
      simp only [Except.bind_ok', List.mem_cons, forall_eq_or_imp, ha, Except.ok.injEq, exists_eq', true_and]
      rw [← ih]
      cases l.mapM f <;> simp

theorem mapM_perm {α β : Type} {f : α → Py β} {l l' : List α} (h : l.Perm l') {bs : List β} (hb : l.mapM f = .ok bs) :
    ∃ bs', l'.mapM f = .ok bs' ∧ bs.Perm bs' := by
  obtain ⟨bs', hb'⟩ := mapM_ok_iff.2 (fun a ha => mapM_ok_iff.1 ⟨bs, hb⟩ a (h.mem_iff.2 ha))
  refine ⟨bs', hb', ?_⟩
  have e1 : ∀ {l : List α} {bs : List β}, l.mapM f = .ok bs → bs.map some = l.map (fun a => (f a).toOption) := by
    intro l bs h
    have := mapM_ok_mem h
    clear h
    induction this with
    | nil => rfl
    | cons h _ ih => rw [List.map_cons, List.map_cons, ih, h]; rfl
  have hp : (bs.map some).Perm (bs'.map some) := by
    rw [e1 hb, e1 hb']; exact h.map _
  have e2 : ∀ l : List β, l = (l.map some).filterMap id := by intro l; simp [List.filterMap_map]
  rw [e2 bs, e2 bs']
  exact hp.filterMap _

/-- C34 (child order).  Processing the children one after the other in any order gives a result iff `ctpc_algorithm` does,
with the same edges. -/
theorem child_order_irrelevant {E : CBEnv} (hw : WFStructure E.struct) (hnd : E.struct.indexes.Nodup)
    (m : List (List Bool)) (order : List Label) (ho : order.Perm E.struct.labels) :
    ((∃ ess, (E.ctpcSeqLoop order ⟨[], m⟩).1 = .ok ess) ↔ ∃ es, (E.ctpcSequential ⟨[], m⟩).1 = .ok es) ∧
    ∀ ess es, (E.ctpcSeqLoop order ⟨[], m⟩).1 = .ok ess → (E.ctpcSequential ⟨[], m⟩).1 = .ok es → ess.flatten.Perm es := by
  rw [ctpc_seq_eq hw hnd, (CBEnv.seqLoop_eq hw hnd m order (ho.nodup_iff.2 hw.nodup) (fun n hn => ho.mem_iff.1 hn) m
    (fun _ _ _ _ _ => rfl)).1]
  constructor
  · constructor
    · rintro ⟨ess, h⟩
      obtain ⟨ess', h', _⟩ := mapM_perm ho h
      exact ⟨ess'.flatten, by rw [h']; rfl⟩
    · rintro ⟨es, h⟩
      cases hm : E.struct.labels.mapM (fun n => (E.optimize ⟨[], m⟩ n).1) with
      | error e => rw [hm] at h; simp at h
      | ok ess =>
        obtain ⟨ess', h', _⟩ := mapM_perm ho.symm hm
        exact ⟨ess', h'⟩
  · intro ess es h h2
    obtain ⟨ess', h', hp⟩ := mapM_perm ho h
    rw [h'] at h2
    simp only [Except.bind_ok', Except.ok.injEq] at h2
    rw [← h2]
    exact hp.flatten

/-- The hypotheses are met: another order of the labels. -/
example : ["C", "A", "B"].Perm Demo.env.struct.labels ∧ Demo.env.struct.indexes.Nodup ∧ WFStructure Demo.env.struct :=
  ⟨by decide, by decide, Demo.struct3_wf⟩

/-! ## C35: running again -/

/-- C35 (with a process pool): the estimator is left as it was, so running again gives the same outcome, in any order. -/
theorem parallel_rerun_same {E : CBEnv} (hw : WFStructure E.struct) (hnd : E.struct.indexes.Nodup) (m : List (List Bool))
    (order order' : List Label) (ho : order.Perm E.struct.labels) (ho' : order'.Perm E.struct.labels) :
    (E.ctpcParallel (E.ctpcParallel ⟨[], m⟩ order).2 order').1 = (E.ctpcParallel ⟨[], m⟩ order).1 := by
  have : (E.ctpcParallel ⟨[], m⟩ order).2 = ⟨[], m⟩ := rfl
  rw [this, parallel_equals_sequential hw hnd m order' ho', parallel_equals_sequential hw hnd m order ho]

/-- C35 (sequentially, what holds): if every edge frozen by the data-size rule during the first call was kept, a second call
returns the same edges.  In particular when nothing is frozen. -/
theorem sequential_rerun_same_partial {E : CBEnv} (hw : WFStructure E.struct) (hnd : E.struct.indexes.Nodup)
    {m : List (List Bool)} {es : List Edge} {st : CBState} (h : E.ctpcSequential ⟨[], m⟩ = (.ok es, st))
    (hfrozen : ∀ p child, p ∈ E.struct.labels → child ∈ E.struct.labels → p ≠ child → removableEdge E m p child →
      ¬ removableEdge E st.removable p child → (p, child) ∈ es) :
    (E.ctpcSequential st).1 = .ok es := by
  have h1 : (E.ctpcSequential ⟨[], m⟩).1 = .ok es := by rw [h]
  obtain ⟨k1, k2⟩ := CBEnv.seqLoop_eq hw hnd m E.struct.labels hw.nodup (fun n hn => hn) m (fun _ _ _ _ _ => rfl)
  have hst : (E.ctpcSeqLoop E.struct.labels ⟨[], m⟩).2 = st ∧ ∃ ess, (E.ctpcSeqLoop E.struct.labels ⟨[], m⟩).1 = .ok ess := by
    unfold CBEnv.ctpcSequential at h
    revert h
    generalize E.ctpcSeqLoop E.struct.labels ⟨[], m⟩ = r
    obtain ⟨r1, s1⟩ := r
    intro h
    cases r1 with
    | error e => simp at h
    | ok ess => simp only [Prod.mk.injEq] at h; exact ⟨h.2, ess, rfl⟩
  obtain ⟨hst, hok⟩ := hst
  obtain ⟨hcache, hcols⟩ := k2 hok
  rw [hst] at hcache hcols
  have hst' : st = ⟨[], st.removable⟩ := by
    obtain ⟨c, r⟩ := st
    simp only at hcache
    rw [hcache]
  rw [hst', ctpc_seq_eq hw hnd, ← h1, ctpc_seq_eq hw hnd]
  congr 1
  apply mapM_congr'
  intro n hn
  obtain ⟨esc, st', ho, hmem⟩ := ctpc_result hw hnd h1 hn
  obtain ⟨j, _, hj⟩ := getNodeIndx_mem hw hn
  have hcol := (hcols j).1 n hn j hj
  have hu : uncachedOptimize E m n = (.ok esc, (uncachedOptimize E m n).2) := by
    refine Prod.ext ?_ rfl
    rw [← (CBEnv.optimize_sim hw hn m).1, ho]
  have := CBEnv.uncachedOptimize_again hw hn hu hj hcol (by
    intro p hp hr hnr
    rw [← hmem]
    have hp' := CBEnv.others_mem.1 hp
    refine hfrozen p n hp'.1 hn hp'.2 hr (fun hr' => hnr ?_)
    obtain ⟨i, j', hi, hj', hf⟩ := hr'
    rw [hj] at hj'; injection hj' with hj'; subst hj'
    exact ⟨i, j, hi, hj, by rw [← hcol i]; exact hf⟩)
  rw [(CBEnv.optimize_sim hw hn _).1, this, ho]

/-- The hypotheses of `sequential_rerun_same_partial` are met. -/
example : ∃ es st, Demo.env.ctpcSequential ⟨[], Demo.allTrue⟩ = (.ok es, st) ∧ st.removable = Demo.allTrue ∧ es ≠ [] := by
  rw [CBEnv.sequential_eq_F]
  exact ⟨_, _, rfl, by decide +kernel, by decide +kernel⟩

/-- C35 is false of sequential runs: within one level an edge can be frozen by one separating set and dropped on the
strength of the next; the second call then cannot drop it.  Here the second call exchanges the parent of `X`. -/
theorem sequential_rerun_differs :
    ∃ (E : CBEnv) (m : List (List Bool)), WFStructure E.struct ∧ E.struct.indexes.Nodup ∧ DataOK E.struct E.traj ∧
      buildRemovable E.struct E.tot [] = .ok m ∧
      (E.ctpcSequential ⟨[], m⟩).1 = .ok [("X", "P"), ("X", "R"), ("R", "X")] ∧
      (E.ctpcSequential (E.ctpcSequential ⟨[], m⟩).2).1 = .ok [("X", "P"), ("X", "R"), ("P", "X")] := by
  refine ⟨Demo.envRerun, _, ⟨by decide, rfl, rfl⟩, by decide, ?_, rfl, ?_, ?_⟩
  · exact dataOK_of_check _ _ ⟨by decide, rfl, rfl⟩ rfl rfl (by decide) (by decide) (by decide)
  · rw [CBEnv.sequential_eq_F]; decide +kernel
  · rw [CBEnv.sequential_eq_F, CBEnv.sequential_eq_F]; decide +kernel

end PyCTBN
