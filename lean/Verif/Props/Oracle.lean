import Verif.Props.CtpcReturns

/-! # Constraint-based estimation is correct if the tests are (C112) -/

namespace PyCTBN
open Spec

namespace Spec

/-- A test of `p` as a parent of `child` given `S`: known variables, the first two different and outside `S`. -/
structure ValidTest (E : CBEnv) (p child : Label) (S : List Label) : Prop where
  p_mem : p ∈ E.struct.labels
  child_mem : child ∈ E.struct.labels
  S_mem : ∀ q ∈ S, q ∈ E.struct.labels
  p_ne : p ≠ child
  p_notin : p ∉ S
  child_notin : child ∉ S

/-- The tests are right about a network given by its true edges: a true parent is dependent given every set of other variables; a variable
that is not a parent is independent given every set that contains all the true parents; and no test of a variable that is not a parent
declares the data too scarce or fails. -/
structure PerfectTests (E : CBEnv) (true_edge : Label → Label → Prop) : Prop where
  parent : ∀ child c p S, E.struct.getStatesNumber child = .ok c → ValidTest E p child S → true_edge p child →
    freshVerdict E child c p S = .ok .reject ∨ freshVerdict E child c p S = .ok .rejectMark
  separated : ∀ child c p S, E.struct.getStatesNumber child = .ok c → ValidTest E p child S → ¬ true_edge p child →
    (∀ q ∈ E.struct.labels, q ≠ child → true_edge q child → q ∈ S) → freshVerdict E child c p S = .ok .accept
  other : ∀ child c p S, E.struct.getStatesNumber child = .ok c → ValidTest E p child S → ¬ true_edge p child →
    freshVerdict E child c p S = .ok .accept ∨ freshVerdict E child c p S = .ok .reject

end Spec

/-- **C112** If the tests are right about a network, constraint-based estimation returns exactly that network: sequentially, and with workers
that finish in any order; whatever true edges are given as known. -/
theorem constraint_based_recovers {E : CBEnv} (hw : WFStructure E.struct) (hnd : E.struct.indexes.Nodup)
    (hidx : ∀ i ∈ E.struct.indexes, i < E.struct.total) (htot : E.tot = E.struct.total) {true_edge : Label → Label → Prop}
    (hO : PerfectTests E true_edge) {known : List Edge} (hk : ∀ e ∈ known, true_edge e.1 e.2) {m : List (List Bool)}
    (hm : buildRemovable E.struct E.tot known = .ok m) :
    ∃ es, (E.ctpcSequential ⟨[], m⟩).1 = .ok es ∧
      (∀ order : List Label, order.Perm E.struct.labels → (E.ctpcParallel ⟨[], m⟩ order).1 = .ok es) ∧
      ∀ p child, p ∈ E.struct.labels → child ∈ E.struct.labels → p ≠ child → ((p, child) ∈ es ↔ true_edge p child) := by
  classical
  have hm' := hm
  rw [htot] at hm'
  have hret : ∀ n ∈ E.struct.labels, ∃ es, (E.optimize ⟨[], m⟩ n).1 = .ok es := by
    intro n hn
    obtain ⟨c, _, hcs⟩ := getStatesNumber_mem hw hn
    obtain ⟨es, m', h, _⟩ := uncached_returns_of hw hidx (buildRemovable_flags hm') hn hcs (fun p S ha => by
      by_cases ht : true_edge p n
      · rcases hO.parent n c p S hcs ⟨ha.2, ha.3, ha.4, ha.5, ha.6, ha.7⟩ ht with h | h <;> exact ⟨_, h⟩
      · rcases hO.other n c p S hcs ⟨ha.2, ha.3, ha.4, ha.5, ha.6, ha.7⟩ ht with h | h <;> exact ⟨_, h⟩)
    rw [(CBEnv.optimize_sim hw hn m).1, h]
    exact ⟨_, rfl⟩
  obtain ⟨ess, hess⟩ := mapM_ok_iff.2 hret
  have hs : (E.ctpcSequential ⟨[], m⟩).1 = .ok ess.flatten := by rw [ctpc_seq_eq hw hnd, hess]; rfl
  refine ⟨ess.flatten, hs, fun order ho => by rw [parallel_equals_sequential hw hnd m order ho, hs], ?_⟩
  have hfwd : ∀ p child, p ∈ E.struct.labels → child ∈ E.struct.labels → p ≠ child → true_edge p child → (p, child) ∈ ess.flatten := by
    intro p child hp hc hne ht
    by_contra hout
    obtain ⟨_, c, S, hcs, h1, h2, h3, hv⟩ := dropped_only_on_evidence hw hnd hs hp hc hne hout
    rcases hO.parent child c p S hcs ⟨hp, hc, h3, hne, h1, h2⟩ ht with h | h <;> · rw [hv] at h; cases h
  intro p child hp hc hne
  refine ⟨fun hin => ?_, hfwd p child hp hc hne⟩
  by_contra ht
  obtain ⟨c, hcs, h1 | ⟨S, s1, s2, s3, s4⟩ | h3⟩ := kept_only_if_dependent hw hnd hs hc hin
  · -- not removable: then it was known
    apply h1
    obtain ⟨i, hi, e1⟩ := getNodeIndx_mem hw hp
    obtain ⟨j, hj, e2⟩ := getNodeIndx_mem hw hc
    refine ⟨i, j, e1, e2, ?_⟩
    have hno : ¬ ∃ e ∈ known, E.struct.getNodeIndx e.1 = .ok i ∧ E.struct.getNodeIndx e.2 = .ok j := by
      rintro ⟨e, he, k1, k2⟩
      have known_mem : ∀ {l : Label} {a : Nat}, E.struct.getNodeIndx l = .ok a → l ∈ E.struct.labels := by
        intro l a hl
        by_contra hcon
        unfold Structure.getNodeIndx at hl
        rw [pyIndex_of_not_mem hcon] at hl
        simp at hl
      have q1 := CBEnv.indx_inj hw hnd (known_mem k1) hp k1 e1
      have q2 := CBEnv.indx_inj hw hnd (known_mem k2) hc k2 e2
      have := hk e he
      rw [q1, q2] at this
      exact ht this
    rw [(removable_matrix_exact hm' i j).2 hno, if_pos ⟨hidx i hi, hidx j hj⟩]
  · rcases hO.other child c p S hcs ⟨hp, hc, s3, hne, s1, s2⟩ ht with h | h <;> · rw [s4] at h; cases h
  · -- all the true parents are there: independent of `p` given them
    let R : Finset Label := E.struct.labels.toFinset.filter (fun q => true_edge q child ∧ q ≠ child)
    obtain ⟨S, hS, hv⟩ := h3 R (fun q hq => by
      simp only [R, Finset.mem_filter, List.mem_toFinset] at hq
      refine ⟨hfwd q child hq.1 hc hq.2.2 hq.2.1, fun h => ht (h ▸ hq.2.1)⟩)
    have hSm : ∀ q, q ∈ S ↔ q ∈ E.struct.labels ∧ true_edge q child ∧ q ≠ child := by
      intro q
      rw [← List.mem_toFinset, hS]
      simp only [R, Finset.mem_filter, List.mem_toFinset]
    have := hO.separated child c p S hcs ⟨hp, hc, fun q hq => ((hSm q).1 hq).1, hne, fun h => ht ((hSm p).1 h).2.1,
      fun h => ((hSm child).1 h).2.2 rfl⟩ ht (fun q hq hqc hqt => (hSm q).2 ⟨hq, hqt, hqc⟩)
    rw [hv] at this
    cases this

/-! ## The hypotheses are met -/

theorem freshVerdict_congr {E : CBEnv} {child p : Label} {c : Nat} {S S' : List Label} (h : E.TestArgs p child S) (h' : E.TestArgs p child S')
    (hS : ∀ q, q ∈ S ↔ q ∈ S') : freshVerdict E child c p S = freshVerdict E child c p S' := by
  unfold freshVerdict
  rw [CBEnv.verdict_nil h, CBEnv.verdict_nil h', CBEnv.pureVerdict, CBEnv.pureVerdict]
  have e1 : S.toFinset = S'.toFinset := by ext q; simp [hS]
  have e2 : (p :: S).toFinset = (p :: S').toFinset := by rw [List.toFinset_cons, List.toFinset_cons, e1]
  have e3 : E.cimsFilter p S = E.cimsFilter p S' := by unfold CBEnv.cimsFilter; congr 1; apply List.filter_congr; intro l _; simp [hS]
  have e4 : E.thumb p S c = E.thumb p S' c := by 
    have : E.masked E.struct.vals S = E.masked E.struct.vals S' := by unfold CBEnv.masked; simp only [hS]
    unfold CBEnv.thumb; rw [this]
  rw [e1, e2, e3, e4]

namespace Demo

/-- `B` drives `A`; `B` and `C` are free. -/
def oracleData : Trajectory :=
  { times := List.replicate 20 1
    rows := [[0, 0, 0, 0, 1, 0], [0, 1, 0, 0, 0, 0], [0, 0, 1, 0, 1, 1], [0, 1, 1, 0, 0, 1], [1, 0, 0, 1, 1, 0], [1, 1, 0, 1, 0, 0], [1, 0, 1, 1, 1, 1], [1, 1, 1, 1, 0, 1], [0, 0, 0, 0, 0, 1], [0, 0, 1, 0, 0, 0], [0, 1, 0, 0, 1, 1], [0, 1, 1, 0, 1, 0], [1, 0, 0, 1, 0, 1], [1, 0, 1, 1, 0, 0], [1, 1, 0, 1, 1, 1], [1, 1, 1, 1, 1, 0], [0, 0, 0, 1, 0, 0], [1, 1, 0, 0, 1, 0], [0, 0, 1, 1, 0, 1], [1, 1, 1, 0, 1, 1]]
    origCols := 4 }

def oracleEnv : CBEnv := ⟨struct3, 3, oracleData, env.twoCim⟩

/-- The tests on this data are right about the network with the single edge `B → A`. -/
theorem oracleEnv_perfect : PerfectTests oracleEnv (fun p child => p = "B" ∧ child = "A") := by
  have key : ∀ child ∈ struct3.labels, ∀ p ∈ struct3.labels, p ≠ child → ∀ S ∈ struct3.labels.sublists, p ∉ S → child ∉ S →
      freshVerdict oracleEnv child 2 p S = if p = "B" ∧ child = "A" then .ok .reject
        else if child = "A" ∧ "B" ∉ S then freshVerdict oracleEnv child 2 p S else .ok .accept := by
    decide +kernel
  have key2 : ∀ child ∈ struct3.labels, ∀ p ∈ struct3.labels, p ≠ child → ∀ S ∈ struct3.labels.sublists, p ∉ S → child ∉ S →
      freshVerdict oracleEnv child 2 p S = .ok .accept ∨ freshVerdict oracleEnv child 2 p S = .ok .reject := by
    decide +kernel
  have hcard : ∀ child c, oracleEnv.struct.getStatesNumber child = .ok c → child ∈ struct3.labels → c = 2 := by
    intro child c h hc
    have : ∀ child ∈ struct3.labels, struct3.getStatesNumber child = .ok 2 := by decide
    rw [show oracleEnv.struct.getStatesNumber child = .ok 2 from this child hc] at h
    cases h; rfl
  have red : ∀ child p S, ValidTest oracleEnv p child S → ∃ S' ∈ struct3.labels.sublists, p ∉ S' ∧ child ∉ S' ∧ (∀ q, q ∈ S ↔ q ∈ S') ∧
      ∀ c, freshVerdict oracleEnv child c p S = freshVerdict oracleEnv child c p S' := by
    intro child p S ha
    have hm : ∀ q, q ∈ S ↔ q ∈ struct3.labels.filter (fun l => decide (l ∈ S)) := by
      intro q
      simp only [List.mem_filter, decide_eq_true_eq]
      exact ⟨fun h => ⟨ha.S_mem q h, h⟩, fun h => h.2⟩
    refine ⟨_, List.mem_sublists.2 List.filter_sublist, fun h => ha.p_notin ((hm p).2 h), fun h => ha.child_notin ((hm child).2 h), hm, fun c => ?_⟩
    exact freshVerdict_congr ⟨struct3_wf, ha.1, ha.2, ha.3, ha.4, ha.5, ha.6⟩ ⟨struct3_wf, ha.p_mem, ha.child_mem, fun q hq => ha.S_mem q ((hm q).2 hq), ha.p_ne, fun h => ha.p_notin ((hm p).2 h),
      fun h => ha.child_notin ((hm child).2 h)⟩ hm
  refine ⟨?_, ?_, ?_⟩
  · intro child c p S hcs ha ht
    obtain ⟨S', s1, s2, s3, s4, s5⟩ := red child p S ha
    have := hcard child c hcs ha.child_mem
    subst this
    rw [s5, key child ha.child_mem p ha.p_mem ha.p_ne S' s1 s2 s3, if_pos ht]
    exact .inl rfl
  · intro child c p S hcs ha ht hsep
    obtain ⟨S', s1, s2, s3, s4, s5⟩ := red child p S ha
    have := hcard child c hcs ha.child_mem
    subst this
    rw [s5, key child ha.child_mem p ha.p_mem ha.p_ne S' s1 s2 s3, if_neg ht, if_neg]
    rintro ⟨rfl, hB⟩
    exact hB ((s4 "B").1 (hsep "B" (by change "B" ∈ struct3.labels; decide) (by decide) ⟨rfl, rfl⟩))
  · intro child c p S hcs ha _
    obtain ⟨S', s1, s2, s3, s4, s5⟩ := red child p S ha
    have := hcard child c hcs ha.child_mem
    subst this
    rw [s5]
    exact key2 child ha.child_mem p ha.p_mem ha.p_ne S' s1 s2 s3

example : ∃ es, (oracleEnv.ctpcSequential ⟨[], allTrue⟩).1 = .ok es ∧ ("B", "A") ∈ es ∧ ("C", "A") ∉ es := by
  obtain ⟨es, h, -, hes⟩ := constraint_based_recovers (E := oracleEnv) (known := []) (m := allTrue) struct3_wf
    (by change struct3.indexes.Nodup; decide) (by change ∀ i ∈ struct3.indexes, i < 3; decide) rfl oracleEnv_perfect (by simp) rfl
  have hB : "B" ∈ oracleEnv.struct.labels := by change "B" ∈ struct3.labels; decide
  have hA : "A" ∈ oracleEnv.struct.labels := by change "A" ∈ struct3.labels; decide
  have hC : "C" ∈ oracleEnv.struct.labels := by change "C" ∈ struct3.labels; decide
  exact ⟨es, h, (hes "B" "A" hB hA (by decide)).2 ⟨rfl, rfl⟩, fun h => absurd ((hes "C" "A" hC hA (by decide)).1 h).1 (by decide)⟩

end Demo

end PyCTBN
