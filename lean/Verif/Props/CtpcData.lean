import Verif.Spec.CtpcData
import Verif.Props.Oracle
import Verif.Props.Recode

/-!
# Complete tests and constraint-based estimation in terms of the data
-/

namespace PyCTBN
open Spec Indep

theorem trueCim_eq (s : Structure) (t : Trajectory) (child : Label) (c : Nat) (ls : List Label) (u : List Nat) :
    trueCim s t child c ls u = cimOf c (observed s t child ls c u).time (observed s t child ls c u).count (observed s t child ls c u).intensity ∧
      ExitCounts c (observed s t child ls c u).count := by
  constructor
  · have hm : ((List.range c).map (fun x => (List.range c).map (fun x' =>
        if x = x' then ((List.range c).map (fun y => if x = y then 0 else transitions s t child ls x y u)).sum
        else transitions s t child ls x x' u))) = matrixOf c (observed s t child ls c u).count := by
      unfold matrixOf
      apply List.map_congr_left
      intro x hx
      apply List.map_congr_left
      intro y _
      simp only [observed]
      split
      · rw [list_sum_ite_erase c x (List.mem_range.1 hx)]
      · rfl
    unfold trueCim
    rw [hm]
    unfold Cim.build cimOf
    congr 1
    unfold cimCoefficients matrixOf
    rw [zipIdx_range_map, List.map_map]
    apply List.map_congr_left
    intro i hi
    simp only [Function.comp]
    have hi' := List.mem_range.1 hi
    rw [zipIdx_range_map, List.map_map]
    apply List.map_congr_left
    intro j hj
    simp only [Function.comp]
    rw [List.getElem?_map, List.getElem?_range hi']
    rfl
  · intro x _
    simp only [observed, if_true]
    apply Finset.sum_congr rfl
    intro y hy
    rw [if_neg (Finset.ne_of_mem_erase hy).symm]

theorem dataSize_replicate (c : Nat) (ls : List Label) : dataSize c c (ls.map (fun _ => c)) = if 2 < c then (c - 1) ^ 2 * c * c ^ ls.length else 0 := by
  unfold dataSize
  rw [List.map_const', List.prod_replicate]

/-- **C135** A complete test on an empty cache answers "independent" iff, for every assignment of states to the tested parent and the separating set,
the data given the separating set are not too scarce and no state of the child tells them apart from the data given the parent as well. -/
theorem complete_test_accepts_iff {E : CBEnv} {P : IndepParams} {c : Nat} (hR : UniformRun E P c) {p child : Label} {S : List Label}
    (ha : E.TestArgs p child S) :
    freshVerdict E child c p S = .ok .accept ↔
      ∀ a : Label → Nat, (∀ q, a q < c) →
        ¬ Scarce P c (given E.struct E.traj child c S a).count (if 2 < c then (c - 1) ^ 2 * c * c ^ (ordered E.struct S).length else 0) ∧
        ¬ ToldApart P c (given E.struct E.traj child c S a) (given E.struct E.traj child c (p :: S) a) := by
  have hmo : ∀ (K : List Label), ∀ l ∈ ordered E.struct K, l ∈ E.struct.labels := fun K l hl => (List.mem_filter.1 hl).1
  have hcard := fun l (hl : l ∈ E.struct.labels) => uniform_card hR.wf hR.cards hl
  rw [complete_test_compares_matching_cims_partial ha hR.total hR.data (hcard child ha.child_mem) hR.pos (uniform_cards hR.wf hR.cards (hmo S))
    (uniform_cards hR.wf hR.cards (hmo (p :: S))) (uniform_exact c _) (uniform_exact c _) (hcard p ha.p_mem), dataSize_replicate]
  have key : ∀ a : Label → Nat, E.twoCim c (trueCim E.struct E.traj child c (ordered E.struct S) ((ordered E.struct S).map a))
      (trueCim E.struct E.traj child c (ordered E.struct (p :: S)) ((ordered E.struct (p :: S)).map a))
      (if 2 < c then (c - 1) ^ 2 * c * c ^ (ordered E.struct S).length else 0) = .ok .accept ↔
        (¬ Scarce P c (given E.struct E.traj child c S a).count (if 2 < c then (c - 1) ^ 2 * c * c ^ (ordered E.struct S).length else 0) ∧
        ¬ ToldApart P c (given E.struct E.traj child c S a) (given E.struct E.traj child c (p :: S) a)) := by
    intro a
    obtain ⟨e1, x1⟩ := trueCim_eq E.struct E.traj child c (ordered E.struct S) ((ordered E.struct S).map a)
    obtain ⟨e2, x2⟩ := trueCim_eq E.struct E.traj child c (ordered E.struct (p :: S)) ((ordered E.struct (p :: S)).map a)
    rw [hR.test, e1, e2]
    obtain ⟨v, hv, -, hacc, -⟩ := two_cim_test_exact P (t1 := (observed E.struct E.traj child (ordered E.struct S) c ((ordered E.struct S).map a)).time)
      (t2 := (observed E.struct E.traj child (ordered E.struct (p :: S)) c ((ordered E.struct (p :: S)).map a)).time)
      (q1 := (observed E.struct E.traj child (ordered E.struct S) c ((ordered E.struct S).map a)).intensity)
      (q2 := (observed E.struct E.traj child (ordered E.struct (p :: S)) c ((ordered E.struct (p :: S)).map a)).intensity) x1 x2
      (if 2 < c then (c - 1) ^ 2 * c * c ^ (ordered E.struct S).length else 0)
    rw [hv, Except.ok.injEq, hacc]
    unfold ToldApart given
    push Not
    refine and_congr_right (fun _ => ?_)
    exact ⟨fun h x hx => ⟨h.1 x hx, h.2 x hx⟩, fun h => ⟨fun x hx => (h x hx).1, fun x hx => (h x hx).2⟩⟩
  constructor
  · intro h a haa
    exact (key a).1 (h a (fun q hq => ⟨c, hcard q (by rcases hq with rfl | hq; exact ha.p_mem; exact ha.S_mem q hq), haa q⟩))
  · intro h a haa
    -- only the states of the variables involved matter
    let a' : Label → Nat := fun q => if a q < c then a q else 0
    have hc := hR.pos
    have h' := (key a').2 (h a' (fun q => by simp only [a']; split <;> omega))
    have hlt : ∀ q, q = p ∨ q ∈ S → a' q = a q := by
      intro q hq
      obtain ⟨v, h1, h2⟩ := haa q hq
      have hqm : q ∈ E.struct.labels := by rcases hq with rfl | hq; exact ha.p_mem; exact ha.S_mem q hq
      rw [hcard q hqm] at h1
      cases h1
      exact if_pos h2
    have e1 : (ordered E.struct S).map a' = (ordered E.struct S).map a :=
      List.map_congr_left (fun q hq => hlt q (Or.inr (by simpa using (List.mem_filter.1 hq).2)))
    have e2 : (ordered E.struct (p :: S)).map a' = (ordered E.struct (p :: S)).map a :=
      List.map_congr_left (fun q hq => hlt q (by simpa using (List.mem_filter.1 hq).2))
    rw [e1, e2] at h'
    exact h'

/-! ## The search depends on the verdicts only -/

theorem subsetLoop_congr {σ : Type} {T T' : CBTest σ} {p : Label} {Ss : List (List Label)} (h : ∀ S ∈ Ss, ∀ s, T.test p S s = T'.test p S s) (s : σ) :
    subsetLoop T p Ss s = subsetLoop T' p Ss s := by
  induction Ss generalizing s with
  | nil => rfl
  | cons S Ss ih =>
    rw [subsetLoop, subsetLoop, h S (by simp) s]
    rcases T'.test p S s with ⟨_ | b, s1⟩
    · rfl
    · cases b
      · exact ih (fun S' hS' => h S' (by simp [hS'])) s1
      · rfl

theorem visit_congr {σ : Type} {T T' : CBTest σ} {u : List Label} {p : Label} (hp : p ∈ u) (hf : ∀ s, T.flag p s = T'.flag p s)
    (h : ∀ S, S.Sublist (u.erase p) → ∀ s, T.test p S s = T'.test p S s) (b : Nat) (s : σ) : visit T b u p s = visit T' b u p s := by
  unfold visit
  rw [hf, subSetsOfSize_of_mem hp]
  rcases T'.flag p s with _ | b'
  · rfl
  · cases b'
    · rfl
    · exact subsetLoop_congr (fun S hS => h S (mem_combos.1 hS).1) s

theorem innerLoop_congr {σ : Type} {T T' : CBTest σ} (child : Label) (b : Nat) (u : List Label) (g : NetworkGraph) (idx : Nat) (s : σ)
    (hf : ∀ p ∈ u, ∀ s, T.flag p s = T'.flag p s) (h : ∀ p ∈ u, ∀ S, S.Sublist (u.erase p) → ∀ s, T.test p S s = T'.test p S s) :
    innerLoop T child b u g idx s = innerLoop T' child b u g idx s := by
  fun_induction innerLoop T child b u g idx s with
  | case1 u g idx s hlt e s1 hv =>
    rw [innerLoop.eq_def T']
    rw [dif_pos hlt, ← visit_congr (List.getElem_mem hlt) (hf _ (List.getElem_mem hlt)) (h _ (List.getElem_mem hlt)), hv]
  | case2 u g idx s hlt s1 hv ih =>
    rw [innerLoop.eq_def T' child b u]
    rw [dif_pos hlt, ← visit_congr (List.getElem_mem hlt) (hf _ (List.getElem_mem hlt)) (h _ (List.getElem_mem hlt)), hv]
    exact ih (fun p hp => hf p (List.mem_of_mem_erase hp)) (fun p hp S hS => h p (List.mem_of_mem_erase hp) S (CBEnv.erase_erase_sublist hS))
  | case3 u g idx s hlt s1 hv ih =>
    rw [innerLoop.eq_def T' child b u]
    rw [dif_pos hlt, ← visit_congr (List.getElem_mem hlt) (hf _ (List.getElem_mem hlt)) (h _ (List.getElem_mem hlt)), hv]
    exact ih hf h
  | case4 u g idx s hlt => rw [innerLoop.eq_def T', dif_neg hlt]

theorem innerLoop_sublist {σ : Type} {T : CBTest σ} (child : Label) (b : Nat) (u : List Label) (g : NetworkGraph) (idx : Nat) (s : σ)
    {u' : List Label} {g' : NetworkGraph} {s' : σ} (h : innerLoop T child b u g idx s = (.ok (u', g'), s')) : u'.Sublist u := by
  fun_induction innerLoop T child b u g idx s with
  | case1 => simp at h
  | case2 u g idx s hlt s1 hv ih => exact (ih h).trans List.erase_sublist
  | case3 u g idx s hlt s1 hv ih => exact ih h
  | case4 => simp only [Prod.mk.injEq, Except.ok.injEq] at h; rw [h.1.1]

theorem outerLoop_congr {σ : Type} {T T' : CBTest σ} (child : Label) (b : Nat) (u : List Label) (g : NetworkGraph) (s : σ)
    (hf : ∀ p ∈ u, ∀ s, T.flag p s = T'.flag p s) (h : ∀ p ∈ u, ∀ S, S.Sublist (u.erase p) → ∀ s, T.test p S s = T'.test p S s) :
    outerLoop T child b u g s = outerLoop T' child b u g s := by
  fun_induction outerLoop T child b u g s with
  | case1 b u g s hlt e s1 hv =>
    rw [outerLoop.eq_def T', if_pos hlt]
    rw [innerLoop_congr child b u g 0 s hf h] at hv
    split
    · rename_i h1; rw [hv] at h1; exact h1
    · rename_i h1; rw [hv] at h1; simp at h1
  | case2 b u g s hlt u' g' s1 hv ih =>
    have hsub := innerLoop_sublist _ _ _ _ _ _ hv
    rw [outerLoop.eq_def T' child b u, if_pos hlt]
    rw [innerLoop_congr child b u g 0 s hf h] at hv
    split
    · rename_i h1; rw [hv] at h1; simp at h1
    · rename_i h1; rw [hv] at h1
      simp only [Prod.mk.injEq, Except.ok.injEq] at h1
      obtain ⟨⟨rfl, rfl⟩, rfl⟩ := h1
      exact ih (fun p hp => hf p (hsub.subset hp)) (fun p hp S hS => h p (hsub.subset hp) S (hS.trans (hsub.erase p)))
  | case3 b u g s hlt => rw [outerLoop.eq_def T', if_neg hlt]

/-- **C136** Constraint-based estimation depends on the data and on the tests only through the verdicts of the complete tests of known variables. -/
theorem estimate_depends_on_verdicts_only {E E' : CBEnv} (hs : E'.struct = E.struct) (hw : WFStructure E.struct) (hnd : E.struct.indexes.Nodup)
    (h : ∀ child c p S, E.struct.getStatesNumber child = .ok c → ValidTest E p child S →
      freshVerdict E' child c p S = freshVerdict E child c p S) (m : List (List Bool)) :
    (E'.ctpcSequential ⟨[], m⟩).1 = (E.ctpcSequential ⟨[], m⟩).1 ∧
      ∀ order : List Label, order.Perm E.struct.labels → (E'.ctpcParallel ⟨[], m⟩ order).1 = (E.ctpcParallel ⟨[], m⟩ order).1 := by
  have key : ∀ n ∈ E.struct.labels, (E'.optimize ⟨[], m⟩ n).1 = (E.optimize ⟨[], m⟩ n).1 := by
    intro n hn
    rw [(CBEnv.optimize_sim (hs ▸ hw) (hs ▸ hn) m).1, (CBEnv.optimize_sim hw hn m).1]
    unfold uncachedOptimize
    rw [hs]
    cases hc : E.struct.getStatesNumber n with
    | error e => rfl
    | ok c =>
      have ho : E'.others n = E.others n := by unfold CBEnv.others; rw [hs]
      have hg : E'.startGraph n = E.startGraph n := by unfold CBEnv.startGraph; rw [ho, hs]
      simp only
      rw [ho, hg, outerLoop_congr (T' := uncached E n c)]
      · intro p _ s; simp only [uncached, CBEnv.calls, hs]
      · intro p hp S hS s
        have hpm := CBEnv.others_mem.1 hp
        have hSm : ∀ q ∈ S, q ∈ E.struct.labels ∧ q ≠ n := fun q hq => CBEnv.others_mem.1 (List.mem_of_mem_erase (hS.subset hq))
        have hv := h n c p S hc ⟨hpm.1, hn, fun q hq => (hSm q hq).1, hpm.2,
          fun hq => (CBEnv.others_nodup hw n).not_mem_erase (hS.subset hq), fun hq => (hSm n hq).2 rfl⟩
        simp only [uncached, CBEnv.calls, hs]
        cases h1 : E.struct.getNodeIndx p with
        | error e => rfl
        | ok i =>
          cases h2 : E.struct.getNodeIndx n with
          | error e => rfl
          | ok j =>
            simp only [CBEnv.completeTest_eq]
            unfold freshVerdict at hv
            rw [hv]
  have h1 : (E'.ctpcSequential ⟨[], m⟩).1 = (E.ctpcSequential ⟨[], m⟩).1 := by
    rw [ctpc_seq_eq (hs ▸ hw) (hs ▸ hnd), ctpc_seq_eq hw hnd, hs]
    rw [mapM_congr' key]
  exact ⟨h1, fun order ho => by
    rw [parallel_equals_sequential (hs ▸ hw) (hs ▸ hnd) m order (hs ▸ ho), parallel_equals_sequential hw hnd m order ho, h1]⟩

/-! ## Verdicts other than acceptance come from some comparison -/

theorem compareInner_verdict {E : CBEnv} {c th : Nat} {cim1 : Cim} {l : List Cim} {v : Verdict} (hv : v ≠ .accept)
    (h : E.compareInner c th cim1 l = .ok v) : ∃ cim2 ∈ l, E.twoCim c cim1 cim2 th = .ok v := by
  induction l with
  | nil => simp only [CBEnv.compareInner, Except.ok.injEq] at h; exact absurd h.symm hv
  | cons a l ih =>
    rw [CBEnv.compareInner] at h
    cases h1 : E.twoCim c cim1 a th with
    | error e => rw [h1] at h; simp at h
    | ok w =>
      rw [h1] at h
      cases w with
      | accept => obtain ⟨x, hx, hx2⟩ := ih h; exact ⟨x, by simp [hx], hx2⟩
      | reject => cases h; exact ⟨a, by simp, h1⟩
      | rejectMark => cases h; exact ⟨a, by simp, h1⟩

theorem compareLoop_verdict {E : CBEnv} {c th : Nat} {sofc2 : SetOfCims} {mask : List Bool} {l : List (Cim × List Nat)} {v : Verdict}
    (hv : v ≠ .accept) (h : E.compareLoop c th sofc2 mask l = .ok v) :
    ∃ x ∈ l, ∃ conds, sofc2.filterCims mask x.2 = .ok conds ∧ ∃ cim2 ∈ conds, E.twoCim c x.1 cim2 th = .ok v := by
  induction l with
  | nil => simp only [CBEnv.compareLoop, Except.ok.injEq] at h; exact absurd h.symm hv
  | cons a l ih =>
    obtain ⟨cim1, comb⟩ := a
    rw [CBEnv.compareLoop] at h
    cases h1 : sofc2.filterCims mask comb with
    | error e => rw [h1] at h; simp at h
    | ok conds =>
      rw [h1] at h
      simp only [Except.bind_ok'] at h
      cases h2 : E.compareInner c th cim1 conds with
      | error e => rw [h2] at h; simp at h
      | ok w =>
        rw [h2] at h
        cases w with
        | accept => obtain ⟨x, hx, hx2⟩ := ih h; exact ⟨x, by simp [hx], hx2⟩
        | reject => cases h; exact ⟨(cim1, comb), by simp, conds, h1, compareInner_verdict hv h2⟩
        | rejectMark => cases h; exact ⟨(cim1, comb), by simp, conds, h1, compareInner_verdict hv h2⟩

/-- A complete test that declares the data too scarce has found scarce data for some states of the separating set. -/
theorem complete_test_marks_only_if {E : CBEnv} {P : IndepParams} {c : Nat} (hR : UniformRun E P c) {p child : Label} {S : List Label}
    (ha : E.TestArgs p child S) (h : freshVerdict E child c p S = .ok .rejectMark) :
    ∃ a : Label → Nat, (∀ q, a q < c) ∧ Scarce P c (given E.struct E.traj child c S a).count ((c - 1) ^ 2 * c * c ^ (ordered E.struct S).length) := by
  have hmo : ∀ (K : List Label), ∀ l ∈ ordered E.struct K, l ∈ E.struct.labels := fun K l hl => (List.mem_filter.1 hl).1
  have hcard := fun l (hl : l ∈ E.struct.labels) => uniform_card hR.wf hR.cards hl
  have k1 := uniform_cards hR.wf hR.cards (hmo S)
  have k2 := uniform_cards hR.wf hR.cards (hmo (p :: S))
  have hd1 : E.direct child S.toFinset = estFrom E.struct E.struct.total E.traj child (ordered E.struct S) := by
    unfold CBEnv.direct ordered; rw [hR.total]; congr 1; apply List.filter_congr; intro l _; simp
  have hd2 : E.direct child (p :: S).toFinset = estFrom E.struct E.struct.total E.traj child (ordered E.struct (p :: S)) := by
    unfold CBEnv.direct ordered; rw [hR.total]; congr 1; apply List.filter_congr; intro l _; simp
  obtain ⟨sofc1, e1, c1, m1⟩ := estFrom_exact ha.wf hR.data ha.child_mem (hmo S) (hcard child ha.child_mem) hR.pos k1 (uniform_exact c _)
  obtain ⟨sofc2, e2, c2, m2⟩ := estFrom_exact ha.wf hR.data ha.child_mem (hmo (p :: S)) (hcard child ha.child_mem) hR.pos k2 (uniform_exact c _)
  have hth := thumb_exact ha.wf c (hcard p ha.p_mem) k1
  unfold freshVerdict at h
  rw [CBEnv.verdict_nil ha, CBEnv.pureVerdict, hd1, hd2, e1, e2, hth] at h
  simp only [Except.bind_ok'] at h
  obtain ⟨x, hx, conds, h3, cim2, h4, h5⟩ := compareLoop_verdict (by decide) h
  have hx1 := List.of_mem_zip (show (x.1, x.2) ∈ _ from hx)
  have hmask : E.cimsFilter p S = (ordered E.struct (p :: S)).map (fun l => decide (l ≠ p)) := by
    unfold CBEnv.cimsFilter ordered
    congr 1
    apply List.filter_congr
    intro l _
    simp [or_comm]
  have hpin : p ∈ ordered E.struct (p :: S) := List.mem_filter.2 ⟨ha.p_mem, by simp⟩
  have hord : (ordered E.struct (p :: S)).filter (fun l => decide (l ≠ p)) = ordered E.struct S := by
    unfold ordered
    rw [List.filter_filter]
    apply List.filter_congr
    intro l _
    by_cases hl : l = p
    · subst hl; simp [ha.p_notin]
    · simp [hl]
  have hcount : (E.cimsFilter p S).count true = (ordered E.struct S).length := by
    rw [hmask, ← hord, List.count_eq_countP, List.countP_map, ← List.countP_eq_length_filter]
    congr 1; funext l; simp
  obtain ⟨conds', k3, k4⟩ := filterCims_mem (mask := E.cimsFilter p S) (comb := x.2) c2 (fun r hr => by
    have := ((m2 r).1 hr).length_eq
    rw [hmask]; simp only [List.length_map] at this ⊢; omega) (by
    have := ((m1 _).1 hx1.2).length_eq
    rw [hcount]; simp only [List.length_map] at this; omega) (by rw [hmask]; exact List.mem_map.2 ⟨p, hpin, by simp⟩)
  rw [k3] at h3
  cases h3
  obtain ⟨w, hw1, hw2, rfl⟩ := (k4 _).1 h4
  rw [c1] at hx1
  obtain ⟨u, hu1, hu⟩ := List.mem_map.1 hx1.1
  have hnd : (ordered E.struct S).Nodup := ha.wf.nodup.filter _
  obtain ⟨a, ha1, ha2⟩ := assignment_of_inRange hnd k1 ((m1 u).1 hu1)
  rw [← hu, hR.test] at h5
  obtain ⟨f1, x1⟩ := trueCim_eq E.struct E.traj child c (ordered E.struct S) u
  obtain ⟨f2, x2⟩ := trueCim_eq E.struct E.traj child c (ordered E.struct (p :: S)) w
  rw [f1, f2] at h5
  obtain ⟨v, hv, hmk, -, -⟩ := two_cim_test_exact P (t1 := (observed E.struct E.traj child (ordered E.struct S) c u).time)
    (t2 := (observed E.struct E.traj child (ordered E.struct (p :: S)) c w).time)
    (q1 := (observed E.struct E.traj child (ordered E.struct S) c u).intensity)
    (q2 := (observed E.struct E.traj child (ordered E.struct (p :: S)) c w).intensity) x1 x2 (dataSize c c ((ordered E.struct S).map (fun _ => c)))
  rw [hv] at h5
  cases h5
  have hs := hmk.1 rfl
  have hc2 := hs.1
  rw [dataSize_replicate, if_pos hc2] at hs
  refine ⟨fun q => if a q < c then a q else 0, fun q => ?_, ?_⟩
  · have := hR.pos
    show (if a q < c then a q else 0) < c
    split <;> omega
  · have : (ordered E.struct S).map (fun q => if a q < c then a q else 0) = u := by
      rw [← ha1]
      apply List.map_congr_left
      intro q hq
      obtain ⟨v, g1, g2⟩ := ha2 q hq
      rw [hcard q (hmo S q hq)] at g1
      cases g1
      exact if_pos g2
    unfold given
    rw [this]
    exact hs

theorem not_scarce_small {P : IndepParams} {c : Nat} (h : c ≤ 2) (m : Nat → Nat → Nat) (th : Nat) : ¬ Scarce P c m th := fun hs => by
  have := hs.1; omega

end PyCTBN
