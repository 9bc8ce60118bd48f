import Verif.Props.CtpcTest
import Verif.Props.Indep

/-! # Constraint-based estimation returns (C88) -/

namespace PyCTBN
open Spec Indep

/-! ## The loops return if the tests do -/

/-- The tests answer, and keep the invariant of the state, for every set a search among `u` may form. -/
def AnswersOn {σ : Type} (I : σ → Prop) (T : CBTest σ) (u : List Label) : Prop :=
  ∀ p ∈ u, ∀ S, S.Sublist (u.erase p) → ∀ s, I s → ∃ b s', T.test p S s = (.ok b, s') ∧ I s'

theorem AnswersOn.erase {σ : Type} {I : σ → Prop} {T : CBTest σ} {u : List Label} (h : AnswersOn I T u) (q : Label) :
    AnswersOn I T (u.erase q) :=
  fun p hp S hS => h p (List.erase_subset hp) S (CBEnv.erase_erase_sublist hS)

theorem subsetLoop_returns {σ : Type} {I : σ → Prop} {T : CBTest σ} (p : Label) (Ss : List (List Label))
    (hT : ∀ S ∈ Ss, ∀ s, I s → ∃ b s', T.test p S s = (.ok b, s') ∧ I s') (s : σ) (hs : I s) :
    ∃ b s', subsetLoop T p Ss s = (.ok b, s') ∧ I s' := by
  induction Ss generalizing s with
  | nil => exact ⟨false, s, rfl, hs⟩
  | cons S Ss ih =>
    obtain ⟨b, s1, h1, h2⟩ := hT S (by simp) s hs
    unfold subsetLoop
    rw [h1]
    cases b with
    | true => exact ⟨true, s1, rfl, h2⟩
    | false => exact ih (fun S hS => hT S (by simp [hS])) s1 h2

theorem visit_returns {σ : Type} {I : σ → Prop} {T : CBTest σ} {u : List Label} (hf : ∀ p ∈ u, ∀ s, I s → ∃ b, T.flag p s = .ok b)
    (hT : AnswersOn I T u) (b : Nat) {p : Label} (hp : p ∈ u) (s : σ) (hs : I s) :
    ∃ r s', visit T b u p s = (.ok r, s') ∧ I s' := by
  unfold visit
  obtain ⟨v, hv⟩ := hf p hp s hs
  rw [hv]
  cases v with
  | false => exact ⟨false, s, rfl, hs⟩
  | true =>
    simp only
    rw [subSetsOfSize_of_mem hp]
    exact subsetLoop_returns p _ (fun S hS => hT p hp S (mem_combos.1 hS).1) s hs

theorem innerLoop_returns {σ : Type} {I : σ → Prop} {T : CBTest σ} (child : Label) (b : Nat) (u : List Label)
    (g : NetworkGraph) (idx : Nat) (s : σ) (hf : ∀ p ∈ u, ∀ s, I s → ∃ b, T.flag p s = .ok b) (hT : AnswersOn I T u) (hs : I s) :
    ∃ v s', innerLoop T child b u g idx s = (.ok v, s') ∧ I s' ∧ (∀ p ∈ v.1, p ∈ u) ∧ AnswersOn I T v.1 := by
  fun_induction innerLoop T child b u g idx s with
  | case1 u g idx s hlt e s1 hv =>
    obtain ⟨r, s', h1, _⟩ := visit_returns hf hT b (List.getElem_mem hlt) s hs
    rw [hv] at h1; simp at h1
  | case2 u g idx s hlt s1 hv ih =>
    obtain ⟨r, s', h1, h2⟩ := visit_returns hf hT b (List.getElem_mem hlt) s hs
    rw [hv] at h1
    simp only [Prod.mk.injEq] at h1
    obtain ⟨v, s2, k1, k2, k3, k4⟩ := ih (fun p hp => hf p (List.erase_subset hp)) (hT.erase _) (h1.2 ▸ h2)
    exact ⟨v, s2, k1, k2, fun p hp => List.erase_subset (k3 p hp), k4⟩
  | case3 u g idx s hlt s1 hv ih =>
    obtain ⟨r, s', h1, h2⟩ := visit_returns hf hT b (List.getElem_mem hlt) s hs
    rw [hv] at h1
    simp only [Prod.mk.injEq] at h1
    exact ih hf hT (h1.2 ▸ h2)
  | case4 u g idx s hlt => exact ⟨_, _, rfl, hs, fun p hp => hp, hT⟩

theorem outerLoop_returns {σ : Type} {I : σ → Prop} {T : CBTest σ} (child : Label) (b : Nat) (u : List Label)
    (g : NetworkGraph) (s : σ) (hf : ∀ p ∈ u, ∀ s, I s → ∃ b, T.flag p s = .ok b) (hT : AnswersOn I T u) (hs : I s) :
    ∃ v s', outerLoop T child b u g s = (.ok v, s') ∧ I s' := by
  fun_induction outerLoop T child b u g s with
  | case1 b u g s hlt e s1 hv =>
    obtain ⟨v, s', h1, _⟩ := innerLoop_returns child b u g 0 s hf hT hs
    rw [hv] at h1; simp at h1
  | case2 b u g s hlt u' g' s1 hv ih =>
    obtain ⟨v, s', h1, h2, h3, h4⟩ := innerLoop_returns child b u g 0 s hf hT hs
    rw [hv] at h1
    simp only [Prod.mk.injEq, Except.ok.injEq] at h1
    obtain ⟨rfl, rfl⟩ := h1
    exact ih (fun p hp => hf p (h3 p hp)) h4 h2
  | case3 b u g s hlt => exact ⟨_, _, rfl, hs⟩

/-! ## The two-CIM test answers on estimated CIMs -/

theorem list_sum_ite_erase (c x : Nat) (hx : x < c) (f : Nat → Nat) :
    ((List.range c).map (fun y => if x = y then 0 else f y)).sum = ∑ y ∈ (Finset.range c).erase x, f y := by
  have h1 : ((List.range c).map (fun y => if x = y then 0 else f y)).sum = ∑ y ∈ Finset.range c, (if x = y then 0 else f y) := by
    rw [← List.sum_toFinset _ List.nodup_range]; congr 1; ext; simp
  rw [h1, ← Finset.add_sum_erase _ _ (Finset.mem_range.2 hx)]
  rw [if_pos rfl, zero_add]
  apply Finset.sum_congr rfl
  intro y hy
  rw [if_neg (Finset.ne_of_mem_erase hy).symm]

/-- A CIM defined by the data has the shape the two-CIM test needs. -/
theorem trueCim_shape (s : Structure) (t : Trajectory) (child : Label) (c : Nat) (ls : List Label) (u : List Nat) :
    ∃ r m q, trueCim s t child c ls u = cimOf c r m q ∧ ExitCounts c m := by
  refine ⟨fun x => residence s t child ls x u, fun x x' => if x = x' then
      ((List.range c).map (fun y => if x = y then 0 else transitions s t child ls x y u)).sum
      else transitions s t child ls x x' u, ?_⟩
  unfold trueCim Cim.build cimOf
  set r := fun x => residence s t child ls x u
  set m : Nat → Nat → Nat := fun x x' => if x = x' then
      ((List.range c).map (fun y => if x = y then 0 else transitions s t child ls x y u)).sum
      else transitions s t child ls x x' u with hm
  refine ⟨fun i j => ((if i = j then -((m i j : Nat) : ℚ) else ((m i j : Nat) : ℚ)) + 1) / (r i + 1), ?_, ?_⟩
  · congr 1
    unfold cimCoefficients matrixOf
    rw [zipIdx_range_map, List.map_map]
    apply List.map_congr_left
    intro i hi
    simp only [Function.comp]
    have hi' := List.mem_range.1 hi
    rw [zipIdx_range_map, List.map_map]
    apply List.map_congr_left
    intro j hj
    simp only [Function.comp]
    rw [List.getElem?_map, List.getElem?_range hi']
    rfl
  · intro x hx
    simp only [hm, if_true]
    rw [list_sum_ite_erase c x hx]
    apply Finset.sum_congr rfl
    intro y hy
    rw [if_neg (Finset.ne_of_mem_erase hy).symm]

/-- The two-CIM test answers on CIMs defined by the data. -/
theorem twoCim_answers (P : IndepParams) (s : Structure) (t : Trajectory) (child : Label) (c : Nat) (ls ls' : List Label)
    (u u' : List Nat) (th : Nat) :
    ∃ v, independenceTest P c (trueCim s t child c ls u) (trueCim s t child c ls' u') th = .ok v := by
  obtain ⟨r, m, q, h1, h2⟩ := trueCim_shape s t child c ls u
  obtain ⟨r', m', q', h1', h2'⟩ := trueCim_shape s t child c ls' u'
  rw [h1, h1']
  obtain ⟨v, hv, _⟩ := two_cim_test_exact P (t1 := r) (t2 := r') (q1 := q) (q2 := q') h2 h2' th
  exact ⟨v, hv⟩

/-! ## One complete test answers -/

theorem compareInner_answers {E : CBEnv} {c th : Nat} {cim1 : Cim} {l : List Cim}
    (h : ∀ cim2 ∈ l, ∃ v, E.twoCim c cim1 cim2 th = .ok v) : ∃ v, E.compareInner c th cim1 l = .ok v := by
  induction l with
  | nil => exact ⟨_, rfl⟩
  | cons a l ih =>
    obtain ⟨v, hv⟩ := h a (by simp)
    rw [CBEnv.compareInner, hv]
    cases v with
    | accept => exact ih (fun x hx => h x (by simp [hx]))
    | reject => exact ⟨_, rfl⟩
    | rejectMark => exact ⟨_, rfl⟩

theorem compareLoop_answers {E : CBEnv} {c th : Nat} {sofc2 : SetOfCims} {mask : List Bool} {l : List (Cim × List Nat)}
    (h : ∀ x ∈ l, ∃ conds, sofc2.filterCims mask x.2 = .ok conds ∧ ∀ cim2 ∈ conds, ∃ v, E.twoCim c x.1 cim2 th = .ok v) :
    ∃ v, E.compareLoop c th sofc2 mask l = .ok v := by
  induction l with
  | nil => exact ⟨_, rfl⟩
  | cons a l ih =>
    obtain ⟨cim1, comb⟩ := a
    obtain ⟨conds, h1, h2⟩ := h (cim1, comb) (by simp)
    obtain ⟨v, hv⟩ := compareInner_answers h2
    simp only at h1 hv
    rw [CBEnv.compareLoop, h1]
    simp only [Except.bind_ok', hv]
    cases v with
    | accept => exact ih (fun x hx => h x (by simp [hx]))
    | reject => exact ⟨_, rfl⟩
    | rejectMark => exact ⟨_, rfl⟩

theorem uniform_card {s : Structure} (hw : WFStructure s) {c : Nat} (hu : ∀ v ∈ s.vals, v = c) {l : Label} (hl : l ∈ s.labels) :
    s.getStatesNumber l = .ok c := by
  obtain ⟨w, hw', e⟩ := getStatesNumber_mem hw hl
  rw [e, hu w hw']

theorem uniform_cards {s : Structure} (hw : WFStructure s) {c : Nat} (hu : ∀ v ∈ s.vals, v = c) {ls : List Label}
    (hl : ∀ l ∈ ls, l ∈ s.labels) : Cards s ls (ls.map (fun _ => c)) := by
  unfold Cards
  rw [List.map_map]
  apply List.map_congr_left
  intro l hl'
  rw [uniform_card hw hu (hl l hl')]; rfl

theorem uniform_exact (c : Nat) (ls : List Label) : ExactCards c (ls.map (fun _ => c)) := by
  have : ∀ p ∈ ls.map (fun _ => c), p = c := by
    intro p hp; obtain ⟨_, _, rfl⟩ := List.mem_map.1 hp; rfl
  refine ⟨fun p hp => Or.inr (this p hp), fun p q rest h => ?_⟩
  rw [this p (by rw [h]; simp), this q (by rw [h]; simp)]

/-- With equal cardinalities a complete test answers. -/
theorem freshVerdict_answers {E : CBEnv} {P : IndepParams} (h2 : E.twoCim = independenceTest P) {p child : Label} {S : List Label}
    (ha : E.TestArgs p child S) (htot : E.tot = E.struct.total) (hd : DataOK E.struct E.traj) {c : Nat} (hc : 0 < c)
    (hu : ∀ v ∈ E.struct.vals, v = c) : ∃ v, freshVerdict E child c p S = .ok v := by
  have hmo : ∀ (K : List Label), ∀ l ∈ ordered E.struct K, l ∈ E.struct.labels := fun K l hl => (List.mem_filter.1 hl).1
  have hcs := uniform_card ha.wf hu ha.child_mem
  have k1 := uniform_cards ha.wf hu (hmo S)
  have k2 := uniform_cards ha.wf hu (hmo (p :: S))
  have hd1 : E.direct child S.toFinset = estFrom E.struct E.struct.total E.traj child (ordered E.struct S) := by
    unfold CBEnv.direct ordered; rw [htot]; congr 1; apply List.filter_congr; intro l _; simp
  have hd2 : E.direct child (p :: S).toFinset = estFrom E.struct E.struct.total E.traj child (ordered E.struct (p :: S)) := by
    unfold CBEnv.direct ordered; rw [htot]; congr 1; apply List.filter_congr; intro l _; simp
  obtain ⟨sofc1, e1, c1, m1⟩ := estFrom_exact ha.wf hd ha.child_mem (hmo S) hcs hc k1 (uniform_exact c _)
  obtain ⟨sofc2, e2, c2, m2⟩ := estFrom_exact ha.wf hd ha.child_mem (hmo (p :: S)) hcs hc k2 (uniform_exact c _)
  have hth : ∃ th, E.thumb p S c = .ok th := by
    unfold CBEnv.thumb
    split
    · rw [uniform_card ha.wf hu ha.p_mem]; exact ⟨_, rfl⟩
    · exact ⟨_, rfl⟩
  obtain ⟨th, hth⟩ := hth
  unfold freshVerdict
  rw [CBEnv.verdict_nil ha, CBEnv.pureVerdict, hd1, hd2, e1, e2, hth]
  simp only [Except.bind_ok']
  have hmask : E.cimsFilter p S = (ordered E.struct (p :: S)).map (fun l => decide (l ≠ p)) := by
    unfold CBEnv.cimsFilter ordered
    congr 1
    apply List.filter_congr
    intro l _
    simp [or_comm]
  have hord : (ordered E.struct (p :: S)).filter (fun l => decide (l ≠ p)) = ordered E.struct S := by
    unfold ordered
    rw [List.filter_filter]
    apply List.filter_congr
    intro l _
    by_cases hl : l = p
    · subst hl; simp [ha.p_notin]
    · simp [hl]
  have hpin : p ∈ ordered E.struct (p :: S) := List.mem_filter.2 ⟨ha.p_mem, by simp⟩
  have hcount : (E.cimsFilter p S).count true = (ordered E.struct S).length := by
    rw [hmask, ← hord, List.count_eq_countP, List.countP_map, ← List.countP_eq_length_filter]
    congr 1; funext l; simp
  have hfm : false ∈ E.cimsFilter p S := by
    rw [hmask]; exact List.mem_map.2 ⟨p, hpin, by simp⟩
  apply compareLoop_answers
  intro x hx
  have hx1 := List.of_mem_zip (show (x.1, x.2) ∈ _ from hx)
  have hu1 := (m1 _).1 hx1.2
  obtain ⟨conds, k3, k4⟩ := filterCims_mem (mask := E.cimsFilter p S) (comb := x.2) c2 (fun r hr => by
    have := ((m2 r).1 hr).length_eq
    rw [hmask]; simp only [List.length_map] at this ⊢; omega) (by
    have := hu1.length_eq
    rw [hcount]; simp only [List.length_map] at this; omega) hfm
  refine ⟨conds, k3, fun cim2 hc2 => ?_⟩
  obtain ⟨w, _, _, rfl⟩ := (k4 _).1 hc2
  rw [c1] at hx1
  obtain ⟨u, _, hu'⟩ := List.mem_map.1 hx1.1
  rw [← hu', h2]
  exact twoCim_answers P _ _ _ _ _ _ _ _ _

/-! ## The estimation returns -/

/-- The matrix can be read and written at the positions of every pair of variables. -/
def FlagsDefined (s : Structure) (m : List (List Bool)) : Prop :=
  ∀ i j, i < s.total → j < s.total → ∃ b, getFlag m i j = .ok b

theorem buildRemovable_flags {s : Structure} {known : List Edge} {m : List (List Bool)}
    (h : buildRemovable s s.total known = .ok m) : FlagsDefined s m := by
  intro i j hi hj
  obtain ⟨h1, h2⟩ := removable_matrix_exact h i j
  by_cases hk : ∃ e ∈ known, s.getNodeIndx e.1 = .ok i ∧ s.getNodeIndx e.2 = .ok j
  · exact ⟨_, h1 hk⟩
  · exact ⟨true, by rw [h2 hk, if_pos ⟨hi, hj⟩]⟩

/-- The search for one child returns if every test answers, with every test run on an empty cache, and the matrix stays readable. -/
theorem uncached_returns_of {E : CBEnv} (hw : WFStructure E.struct) (hidx : ∀ i ∈ E.struct.indexes, i < E.struct.total)
    {m : List (List Bool)} (hm : FlagsDefined E.struct m) {child : Label} (hch : child ∈ E.struct.labels) {c : Nat}
    (hcs : E.struct.getStatesNumber child = .ok c) (hans : ∀ p S, E.TestArgs p child S → ∃ v, freshVerdict E child c p S = .ok v) :
    ∃ es m', uncachedOptimize E m child = (.ok es, m') ∧ FlagsDefined E.struct m' := by
  unfold uncachedOptimize
  rw [hcs]
  simp only
  have hidx : ∀ l ∈ E.struct.labels, ∃ i, E.struct.getNodeIndx l = .ok i ∧ i < E.struct.total := by
    intro l hl
    obtain ⟨i, hi, e⟩ := getNodeIndx_mem hw hl
    exact ⟨i, e, hidx i hi⟩
  obtain ⟨j, hj, hjt⟩ := hidx child hch
  obtain ⟨v, s', hv, hs'⟩ := outerLoop_returns (I := FlagsDefined E.struct) (T := uncached E child c) child 0 (E.others child)
    (E.startGraph child) m (by
      intro p hp s hs
      obtain ⟨i, hi, hit⟩ := hidx p (CBEnv.others_mem.1 hp).1
      obtain ⟨b, hb⟩ := hs i j hit hjt
      refine ⟨b, ?_⟩
      simp only [uncached, CBEnv.calls, hi, hj, Except.bind_ok']
      exact hb) (by
      intro p hp S hS s hs
      have hp' := CBEnv.others_mem.1 hp
      have ha : E.TestArgs p child S := by
        refine ⟨hw, hp'.1, hch, fun q hq => ?_, hp'.2, fun h => ?_, fun h => ?_⟩
        · exact (CBEnv.others_mem.1 (List.erase_subset (hS.subset hq))).1
        · exact (CBEnv.others_nodup hw child).not_mem_erase (hS.subset h)
        · exact (CBEnv.others_mem.1 (List.erase_subset (hS.subset h))).2 rfl
      obtain ⟨i, hi, hit⟩ := hidx p hp'.1
      obtain ⟨v, hv⟩ := hans p S ha
      rw [CBEnv.test_uncached hi hj, hv]
      cases v with
      | accept => exact ⟨_, _, rfl, hs⟩
      | reject => exact ⟨_, _, rfl, hs⟩
      | rejectMark =>
        obtain ⟨m', hm'⟩ := setFalse_ok_iff.2 (hs i j hit hjt)
        simp only [hm']
        refine ⟨_, _, rfl, fun a b ha hb => ?_⟩
        rw [setFalse_getFlag hm']
        split
        · exact ⟨_, rfl⟩
        · exact hs a b ha hb) hm
  rw [hv]
  exact ⟨_, _, rfl, hs'⟩

/-- The same on valid data with equally many states. -/
theorem uncached_returns {E : CBEnv} {P : IndepParams} (h2 : E.twoCim = independenceTest P) (hw : WFStructure E.struct)
    (htot : E.tot = E.struct.total) (hd : DataOK E.struct E.traj) {c : Nat} (hc : 0 < c) (hu : ∀ v ∈ E.struct.vals, v = c)
    {m : List (List Bool)} (hm : FlagsDefined E.struct m) {child : Label} (hch : child ∈ E.struct.labels) :
    ∃ es m', uncachedOptimize E m child = (.ok es, m') ∧ FlagsDefined E.struct m' :=
  uncached_returns_of hw hd.idx_lt hm hch (uniform_card hw hu hch) (fun _ _ ha => freshVerdict_answers h2 ha htot hd hc hu)

/-- The search for one child returns. -/
theorem search_returns {E : CBEnv} {P : IndepParams} (h2 : E.twoCim = independenceTest P) (hw : WFStructure E.struct)
    (htot : E.tot = E.struct.total) (hd : DataOK E.struct E.traj) {c : Nat} (hc : 0 < c) (hu : ∀ v ∈ E.struct.vals, v = c)
    {m : List (List Bool)} (hm : FlagsDefined E.struct m) {child : Label} (hch : child ∈ E.struct.labels) :
    ∃ es, (E.optimize ⟨[], m⟩ child).1 = .ok es := by
  obtain ⟨es, m', h, _⟩ := uncached_returns h2 hw htot hd hc hu hm hch
  rw [(CBEnv.optimize_sim hw hch m).1, h]
  exact ⟨_, rfl⟩

/-- C88 (what holds).  On valid data whose variables have equally many states, whatever the prior knowledge and the
significance levels (and whatever the quantile functions return), constraint-based estimation returns: sequentially, and in
parallel with every completion order, with the same edges.  Missing: cardinalities that differ, for which it can raise (see
`constraint_based_raises`). -/
theorem constraint_based_returns_partial {E : CBEnv} {P : IndepParams} (h2 : E.twoCim = independenceTest P)
    (hw : WFStructure E.struct) (hnd : E.struct.indexes.Nodup) (htot : E.tot = E.struct.total) (hd : DataOK E.struct E.traj)
    {c : Nat} (hc : 0 < c) (hu : ∀ v ∈ E.struct.vals, v = c) {known : List Edge} {m : List (List Bool)}
    (hm : buildRemovable E.struct E.tot known = .ok m) :
    ∃ es, (E.ctpcSequential ⟨[], m⟩).1 = .ok es ∧
      (∀ order : List Label, order.Perm E.struct.labels → (E.ctpcParallel ⟨[], m⟩ order).1 = .ok es) ∧
      (∀ e ∈ es, e.1 ∈ E.struct.labels ∧ e.2 ∈ E.struct.labels ∧ e.1 ≠ e.2) ∧ (∀ e ∈ known, e.1 ≠ e.2 → e ∈ es) := by
  have hm' := hm
  rw [htot] at hm'
  obtain ⟨ess, hess⟩ := mapM_ok_iff.2 (fun n hn => search_returns h2 hw htot hd hc hu (buildRemovable_flags hm') (child := n) hn)
  have hs : (E.ctpcSequential ⟨[], m⟩).1 = .ok ess.flatten := by rw [ctpc_seq_eq hw hnd, hess]; rfl
  refine ⟨ess.flatten, hs, fun order ho => by rw [parallel_equals_sequential hw hnd m order ho, hs], ?_,
    fun e he hne => known_edges_survive hw hnd hm hs he hne⟩
  intro e he
  obtain ⟨es, hes, hee⟩ := List.mem_flatten.1 he
  have key : ∀ (ls : List Label) (ess : List (List Edge)),
      List.Forall₂ (fun n es => (E.optimize ⟨[], m⟩ n).1 = .ok es) ls ess → ∀ es ∈ ess, ∃ n ∈ ls,
        (E.optimize ⟨[], m⟩ n).1 = .ok es := by
    intro ls ess hf
    induction hf with
    | nil => simp
    | @cons n es ls ess hn hf ih =>
      intro es' h
      rcases List.mem_cons.1 h with rfl | h
      · exact ⟨n, by simp, hn⟩
      · obtain ⟨n', h1, h2⟩ := ih es' h; exact ⟨n', by simp [h1], h2⟩
  obtain ⟨n, hn, hne⟩ := key _ _ (mapM_ok_mem hess) es hes
  have := (search_edges_into_child hw (Prod.ext hne rfl)).2 e hee
  exact ⟨this.2.1, this.1 ▸ hn, fun h => this.2.2 (h.trans this.1)⟩

namespace Demo

/-- A binary and a three-valued variable. -/
def structMixed2 : Structure := ⟨["A", "C"], [0, 1], [2, 3], [], 2⟩

def dataMixed2 : Trajectory :=
  { times := [1, 1, 1, 1, 1, 1]
    rows := [[0, 0, 0, 1], [0, 1, 0, 2], [0, 2, 1, 2], [1, 2, 1, 1], [1, 1, 0, 1], [0, 1, -1, -1]]
    origCols := 3 }

theorem dataMixed2_ok : DataOK structMixed2 dataMixed2 :=
  dataOK_of_check _ _ ⟨by decide, rfl, rfl⟩ rfl rfl (by decide) (by decide) (by decide)

theorem data_ok : DataOK struct3 data := dataOK_of_check _ _ struct3_wf rfl rfl (by decide) (by decide) (by decide)

end Demo

/-- C88 is false of differing cardinalities: on valid data of a binary variable and one with three states, with the
library's own test and whatever its parameters, estimation raises `ValueError`. -/
theorem constraint_based_raises (P : IndepParams) :
    ∃ (E : CBEnv) (m : List (List Bool)), E.twoCim = independenceTest P ∧ WFStructure E.struct ∧ E.struct.indexes.Nodup ∧
      E.tot = E.struct.total ∧ DataOK E.struct E.traj ∧ buildRemovable E.struct E.tot [] = .ok m ∧
      (E.ctpcSequential ⟨[], m⟩).1 = .error .valueError := by
  refine ⟨⟨Demo.structMixed2, 2, Demo.dataMixed2, independenceTest P⟩, [[true, true], [true, true]], rfl,
    ⟨by change Demo.structMixed2.labels.Nodup; decide, rfl, rfl⟩, by change Demo.structMixed2.indexes.Nodup; decide, rfl,
    Demo.dataMixed2_ok, rfl, ?_⟩
  set E : CBEnv := ⟨Demo.structMixed2, 2, Demo.dataMixed2, independenceTest P⟩ with hE
  have hw : WFStructure E.struct := ⟨by change Demo.structMixed2.labels.Nodup; decide, rfl, rfl⟩
  have hd : E.direct "A" ["C"].toFinset = .error .valueError := by
    change estFrom Demo.structMixed2 2 Demo.dataMixed2 "A" (Demo.structMixed2.labels.filter (fun l => decide (l ∈ ["C"].toFinset))) = _
    decide +kernel
  have ha : E.TestArgs "C" "A" [] := by
    constructor
    · exact hw
    · change "C" ∈ Demo.structMixed2.labels; decide
    · change "A" ∈ Demo.structMixed2.labels; decide
    · simp
    · decide
    · simp
    · simp
  have hv : freshVerdict E "A" 2 "C" [] = .error .valueError := by
    unfold freshVerdict
    rw [CBEnv.verdict_nil ha, CBEnv.pureVerdict, hd]; rfl
  have ho : (E.optimize ⟨[], [[true, true], [true, true]]⟩ "A").1 = .error .valueError := by
    rw [(CBEnv.optimize_sim hw ha.child_mem _).1]
    have h1 : E.others "A" = ["C"] := by change Demo.structMixed2.labels.filter _ = _; decide
    have h2 : E.struct.getStatesNumber "A" = .ok 2 := by change Demo.structMixed2.getStatesNumber "A" = _; decide
    have hi : E.struct.getNodeIndx "C" = .ok 1 := by change Demo.structMixed2.getNodeIndx "C" = _; decide
    have hj : E.struct.getNodeIndx "A" = .ok 0 := by change Demo.structMixed2.getNodeIndx "A" = _; decide
    have hf : (uncached E "A" 2).flag "C" [[true, true], [true, true]] = .ok true := by
      simp only [uncached, CBEnv.calls, hi, hj, Except.bind_ok']; decide
    have hvis : visit (uncached E "A" 2) 0 ["C"] "C" [[true, true], [true, true]] =
        (.error .valueError, [[true, true], [true, true]]) := by
      unfold visit
      rw [hf]
      simp only
      rw [subSetsOfSize_of_mem (by simp)]
      simp only [combos]
      unfold subsetLoop
      rw [CBEnv.test_uncached hi hj, hv]
    unfold uncachedOptimize
    rw [h2]
    simp only [h1]
    have hin : innerLoop (uncached E "A" 2) "A" 0 ["C"] (E.startGraph "A") 0 [[true, true], [true, true]] =
        (.error .valueError, [[true, true], [true, true]]) := by
      unfold innerLoop
      rw [dif_pos (by simp)]
      simp only [List.getElem_cons_zero, hvis]
    have hout : outerLoop (uncached E "A" 2) "A" 0 ["C"] (E.startGraph "A") [[true, true], [true, true]] =
        (.error .valueError, [[true, true], [true, true]]) := by
      unfold outerLoop
      rw [if_pos (by simp)]
      split
      · rename_i h; rw [hin] at h; exact h.symm
      · rename_i h; rw [hin] at h; simp at h
    rw [hout]
  have hl : E.struct.labels = ["A", "C"] := rfl
  unfold CBEnv.ctpcSequential
  rw [hl]
  unfold CBEnv.ctpcSeqLoop
  revert ho
  generalize E.optimize ⟨[], [[true, true], [true, true]]⟩ "A" = r
  obtain ⟨r1, r2⟩ := r
  intro ho
  simp only at ho
  subst ho
  rfl

/-- The hypotheses of C88 are met, with a known edge. -/
example (P : IndepParams) : ∃ es, (CBEnv.ctpcSequential ⟨Demo.struct3, 3, Demo.data, independenceTest P⟩
    ⟨[], [[true, true, true], [true, true, true], [false, true, true]]⟩).1 = .ok es ∧ ("C", "A") ∈ es := by
  obtain ⟨es, h1, _, _, h4⟩ := constraint_based_returns_partial (E := ⟨Demo.struct3, 3, Demo.data, independenceTest P⟩) (c := 2)
    (known := [("C", "A")]) rfl Demo.struct3_wf (by change Demo.struct3.indexes.Nodup; decide) rfl
    Demo.data_ok (by decide) (by change ∀ v ∈ Demo.struct3.vals, v = 2; decide)
    (m := [[true, true, true], [true, true, true], [false, true, true]]) (by rfl)
  exact ⟨es, h1, h4 _ (by simp) (by decide)⟩

end PyCTBN
