import Verif.Props.CtpcReturns
import Verif.Props.Boundary

/-! # When constraint-based estimation returns (C104) -/

namespace PyCTBN
open Spec Indep

/-! ## Every candidate is tested with the empty separating set -/

theorem subsetLoop_keeps {σ : Type} {T : CBTest σ} {J : σ → Prop} {q : Label} (h : ∀ S s, J s → J (T.test q S s).2)
    (Ss : List (List Label)) (s : σ) (hs : J s) : J (subsetLoop T q Ss s).2 := by
  induction Ss generalizing s with
  | nil => exact hs
  | cons S Ss ih =>
    have := h S s hs
    unfold subsetLoop
    split
    · rename_i e s1 h1; rw [h1] at this; exact this
    · rename_i s1 h1; rw [h1] at this; exact this
    · rename_i s1 h1; rw [h1] at this; exact ih s1 this

theorem visit_keeps {σ : Type} {T : CBTest σ} {J : σ → Prop} {q : Label} (h : ∀ S s, J s → J (T.test q S s).2)
    (b : Nat) (u : List Label) (s : σ) (hs : J s) : J (visit T b u q s).2 := by
  unfold visit
  split
  · exact hs
  · exact hs
  · split
    · exact hs
    · exact subsetLoop_keeps h _ s hs

/-- If the test of `p` with the empty set raises, the first round of the search raises. -/
theorem innerLoop_hits {σ : Type} {T : CBTest σ} {J : σ → Prop} {p : Label} (hflag : ∀ s, J s → T.flag p s = .ok true)
    (htest : ∀ s, J s → ∃ e s', T.test p [] s = (.error e, s')) (hkeep : ∀ q, q ≠ p → ∀ S s, J s → J (T.test q S s).2)
    (child : Label) (u : List Label) (g : NetworkGraph) (idx : Nat) (s : σ) (hu : u.Nodup) (hp : p ∈ u.drop idx) (hs : J s) :
    ∃ e s', innerLoop T child 0 u g idx s = (.error e, s') := by
  fun_induction innerLoop T child 0 u g idx s with
  | case1 u g idx s hlt e s1 hv => exact ⟨_, _, rfl⟩
  | case2 u g idx s hlt s1 hv ih =>
    have hne : u[idx] ≠ p := by
      rintro rfl
      obtain ⟨e, s', he⟩ := htest s hs
      unfold visit at hv
      rw [hflag s hs] at hv
      simp only [subSetsOfSize_of_mem (List.getElem_mem hlt), combos, subsetLoop, he] at hv
      cases hv
    have hk := visit_keeps (hkeep _ hne) 0 u s hs
    rw [hv] at hk
    refine ih (hu.erase _) ?_ hk
    rw [List.drop_eq_getElem_cons hlt] at hp
    have hp := (List.mem_cons.1 hp).resolve_left (fun e => hne e.symm)
    rw [hu.erase_getElem]
    rw [List.eraseIdx_eq_take_drop_succ, List.drop_append_of_le_length (by simp; omega)]
    exact List.mem_append_right _ hp
  | case3 u g idx s hlt s1 hv ih =>
    have hne : u[idx] ≠ p := by
      rintro rfl
      obtain ⟨e, s', he⟩ := htest s hs
      unfold visit at hv
      rw [hflag s hs] at hv
      simp only [subSetsOfSize_of_mem (List.getElem_mem hlt), combos, subsetLoop, he] at hv
      cases hv
    have hk := visit_keeps (hkeep _ hne) 0 u s hs
    rw [hv] at hk
    refine ih hu ?_ hk
    rw [List.drop_eq_getElem_cons hlt] at hp
    exact (List.mem_cons.1 hp).resolve_left (fun e => hne e.symm)
  | case4 u g idx s hlt =>
    rw [List.drop_eq_nil_of_le (by omega)] at hp
    cases hp

/-! ## Data on which the estimation of a smaller child raises -/

/-- One row of duration 1, with the state `a` in column `i` and `b` in column `j`, 0 elsewhere, and the end of the trajectory. -/
def twoTop (total i j : Nat) (a b : ℤ) : Trajectory :=
  ⟨[1], [(List.range total).map (fun k => if k = i then a else if k = j then b else 0) ++ (List.range total).map (fun _ => (-1 : ℤ))], total + 1⟩

theorem twoTop_states {s : Structure} (hw : WFStructure s) (ho : OwnColumns s) {A B : Label} (hA : A ∈ s.labels) (hB : B ∈ s.labels) (hAB : A ≠ B)
    {i j : Nat} (hi : s.getNodeIndx A = .ok i) (hj : s.getNodeIndx B = .ok j) (a b : ℤ) : ∀ r ∈ (twoTop s.total i j a b).rows, ∀ l ∈ s.labels,
      stateOf s r l = some (if l = A then a else if l = B then b else 0) ∧ nextOf s r l = some (-1) := by
  intro r hr l hl
  simp only [twoTop, List.mem_singleton] at hr
  subst hr
  obtain ⟨k, hk1, hk2⟩ := getNodeIndx_mem hw hl
  have hkt := ho.lt k hk1
  rw [stateOf_eq hk2, nextOf_eq hk2]
  constructor
  · rw [List.getElem?_append_left (by simpa using hkt), List.getElem?_map, List.getElem?_range hkt]
    simp only [Option.map_some, Option.some.injEq]
    have e1 : k = i ↔ l = A := ⟨fun e => indx_inj hw ho.nodup hl hA (e ▸ hk2) hi, fun e => by subst e; rw [hi] at hk2; cases hk2; rfl⟩
    have e2 : k = j ↔ l = B := ⟨fun e => indx_inj hw ho.nodup hl hB (e ▸ hk2) hj, fun e => by subst e; rw [hj] at hk2; cases hk2; rfl⟩
    simp only [e1, e2]
  · rw [List.getElem?_append_right (by simp)]
    simp only [List.length_map, List.length_range, Nat.add_sub_cancel_left, List.getElem?_map, List.getElem?_range hkt, Option.map_some]

theorem twoTop_ok {s : Structure} (hw : WFStructure s) (ho : OwnColumns s) (hpos : PosCards s) {A B : Label} (hA : A ∈ s.labels)
    (hB : B ∈ s.labels) (hAB : A ≠ B) {i j c p : Nat} (hi : s.getNodeIndx A = .ok i) (hj : s.getNodeIndx B = .ok j)
    (hc : s.getStatesNumber A = .ok c) (hp : s.getStatesNumber B = .ok p) :
    DataOK s (twoTop s.total i j ((c - 1 : Nat) : ℤ) ((p - 1 : Nat) : ℤ)) := by
  have hst := twoTop_states hw ho hA hB hAB hi hj ((c - 1 : Nat) : ℤ) ((p - 1 : Nat) : ℤ)
  refine ⟨rfl, rfl, ?_, ho.lt, ?_, ?_⟩
  · intro r hr
    simp only [twoTop, List.mem_singleton] at hr
    subst hr
    simp; ring
  · intro r hr l hl v hv
    obtain ⟨w, hw', e⟩ := getStatesNumber_mem hw hl
    rw [hv] at e
    cases e
    have := hpos v hw'
    refine ⟨if l = A then c - 1 else if l = B then p - 1 else 0, ?_, ?_⟩
    · rw [(hst r hr l hl).1]
      split
      · rfl
      · split <;> rfl
    · by_cases h1 : l = A
      · subst h1; rw [hv] at hc; cases hc; rw [if_pos rfl]; omega
      · rw [if_neg h1]
        by_cases h2 : l = B
        · subst h2; rw [hv] at hp; cases hp; rw [if_pos rfl]; omega
        · rw [if_neg h2]; exact this
  · intro r hr l hl v hv
    exact .inl (hst r hr l hl).2

/-- Estimation of a child with one parent of more states raises on these data. -/
theorem estFrom_raises {s : Structure} (hw : WFStructure s) (ho : OwnColumns s) (hpos : PosCards s) {A B : Label} (hA : A ∈ s.labels)
    (hB : B ∈ s.labels) (hAB : A ≠ B) {i j c p : Nat} (hi : s.getNodeIndx A = .ok i) (hj : s.getNodeIndx B = .ok j)
    (hc : s.getStatesNumber A = .ok c) (hp : s.getStatesNumber B = .ok p) (hcp : c < p) :
    estFrom s s.total (twoTop s.total i j ((c - 1 : Nat) : ℤ) ((p - 1 : Nat) : ℤ)) A [B] = .error .valueError := by
  let s' : Structure := { s with edges := [(B, A)] }
  have hcl : ClosedStructure s' := ⟨⟨hw.nodup, hw.idxLen, hw.valLen⟩, by
    intro e he
    simp only [s', List.mem_singleton] at he
    subst he
    exact ⟨hB, hA⟩⟩
  have hreach : Reach s' (NetworkGraph.new s') := .new hcl
  have hok := twoTop_ok hw ho hpos hA hB hAB hi hj hc hp
  have hok' : DataOK s' (twoTop s.total i j ((c - 1 : Nat) : ℤ) ((p - 1 : Nat) : ℤ)) :=
    ⟨hok.origCols, hok.len, hok.width, hok.idx_lt, hok.cur, hok.nxt⟩
  have hpar : parentsOf (NetworkGraph.new s') A = [B] := by
    have : parentsOf (NetworkGraph.new s') A = s.labels.filter (fun l => decide (l = B)) := by
      unfold parentsOf
      apply List.filter_congr
      intro l _
      have h1 : (NetworkGraph.new s').hasEdge (l, A) = false := rfl
      rw [h1, Bool.false_or]
      simp [NetworkGraph.new, s']
    rw [this, List.filter_eq, List.count_eq_one_of_mem hw.nodup hB]
    rfl
  have hc0 : 0 < c := by
    obtain ⟨w, hw', e⟩ := getStatesNumber_mem hw hA
    rw [hc] at e; cases e; exact hpos c hw'
  have := larger_parent_raises s' _ hreach A B hA c p hpar hc hp hc0 hcp _ hok' (by
    have hst := twoTop_states hw ho hA hB hAB hi hj ((c - 1 : Nat) : ℤ) ((p - 1 : Nat) : ℤ)
    refine ⟨_, List.mem_singleton.2 rfl, ?_, ?_⟩
    · have := (hst _ (List.mem_singleton.2 rfl) A hA).1
      rwa [if_pos rfl] at this
    · have := (hst _ (List.mem_singleton.2 rfl) B hB).1
      rwa [if_neg (fun e => hAB e.symm), if_pos rfl] at this)
  rw [estimate_eq_estFrom hreach hA, hpar] at this
  exact this

/-- The test of a candidate with more states than the child raises. -/
theorem freshVerdict_raises {E : CBEnv} (hw : WFStructure E.struct) (ho : OwnColumns E.struct) (hpos : PosCards E.struct)
    (htot : E.tot = E.struct.total) {A B : Label} (hA : A ∈ E.struct.labels)
    (hB : B ∈ E.struct.labels) (hAB : A ≠ B) {i j c p : Nat} (hi : E.struct.getNodeIndx A = .ok i) (hj : E.struct.getNodeIndx B = .ok j)
    (hc : E.struct.getStatesNumber A = .ok c) (hp : E.struct.getStatesNumber B = .ok p) (hcp : c < p)
    (ht : E.traj = twoTop E.struct.total i j ((c - 1 : Nat) : ℤ) ((p - 1 : Nat) : ℤ)) :
    freshVerdict E A c B [] = .error .valueError := by
  have ha : E.TestArgs B A [] := ⟨hw, hB, hA, by simp, fun e => hAB e.symm, by simp, by simp⟩
  have hd : E.direct A [B].toFinset = .error .valueError := by
    unfold CBEnv.direct
    have : E.struct.labels.filter (fun l => decide (l ∈ [B].toFinset)) = [B] := by
      have h1 : E.struct.labels.filter (fun l => decide (l ∈ [B].toFinset)) = E.struct.labels.filter (fun l => decide (l = B)) := by
        apply List.filter_congr; intro l _; simp
      rw [h1, List.filter_eq, List.count_eq_one_of_mem hw.nodup hB]
      rfl
    rw [this, htot, ht]
    exact estFrom_raises hw ho hpos hA hB hAB hi hj hc hp hcp
  unfold freshVerdict
  rw [CBEnv.verdict_nil ha, CBEnv.pureVerdict, hd]; rfl

/-- The search for the child raises. -/
theorem optimize_raises {E : CBEnv} (hw : WFStructure E.struct) (ho : OwnColumns E.struct) (hpos : PosCards E.struct)
    (htot : E.tot = E.struct.total) {A B : Label} (hA : A ∈ E.struct.labels)
    (hB : B ∈ E.struct.labels) (hAB : A ≠ B) {i j c p : Nat} (hi : E.struct.getNodeIndx A = .ok i) (hj : E.struct.getNodeIndx B = .ok j)
    (hc : E.struct.getStatesNumber A = .ok c) (hp : E.struct.getStatesNumber B = .ok p) (hcp : c < p)
    (ht : E.traj = twoTop E.struct.total i j ((c - 1 : Nat) : ℤ) ((p - 1 : Nat) : ℤ)) {m : List (List Bool)}
    (hm : getFlag m j i = .ok true) : ∃ e, (E.optimize ⟨[], m⟩ A).1 = .error e := by
  rw [(CBEnv.optimize_sim hw hA m).1]
  unfold uncachedOptimize
  rw [hc]
  have hv := freshVerdict_raises hw ho hpos htot hA hB hAB hi hj hc hp hcp ht
  have hBo : B ∈ E.others A := CBEnv.others_mem.2 ⟨hB, fun e => hAB e.symm⟩
  obtain ⟨e, s', he⟩ := innerLoop_hits (T := uncached E A c) (J := fun m => getFlag m j i = .ok true) (p := B)
    (fun s hs => by simp only [uncached, CBEnv.calls, hi, hj, Except.bind_ok']; exact hs)
    (fun s hs => ⟨.valueError, s, by rw [CBEnv.test_uncached hj hi, hv]⟩)
    (fun q hq S s hs => by
      cases hqi : E.struct.getNodeIndx q with
      | error e =>
        simp only [uncached, CBEnv.calls, hqi]
        exact hs
      | ok k =>
        rw [CBEnv.test_uncached hqi hi]
        cases freshVerdict E A c q S with
        | error e => exact hs
        | ok v =>
          cases v with
          | accept => exact hs
          | reject => exact hs
          | rejectMark =>
            simp only
            cases hs' : setFalse s k i with
            | error e => exact hs
            | ok s1 =>
              simp only
              rw [setFalse_getFlag hs', if_neg]
              · exact hs
              · rintro ⟨rfl, -⟩
                have hqm : q ∈ E.struct.labels := by
                  by_contra hn
                  unfold Structure.getNodeIndx at hqi
                  rw [pyIndex_of_not_mem hn] at hqi
                  cases hqi
                exact hq (indx_inj hw ho.nodup hqm hB hqi hj))
    A (E.others A) (E.startGraph A) 0 m (CBEnv.others_nodup hw A) (by simpa using hBo) hm
  have hout : ∃ e s', outerLoop (uncached E A c) A 0 (E.others A) (E.startGraph A) m = (.error e, s') := by
    refine ⟨e, s', ?_⟩
    unfold outerLoop
    rw [if_pos (List.length_pos_of_mem hBo)]
    split
    · rename_i h; rw [he] at h; exact h.symm
    · rename_i h; rw [he] at h; simp at h
  obtain ⟨e, s', hout⟩ := hout
  simp only [hout]
  exact ⟨_, rfl⟩

/-- **C104** Without known edges, for variables with at least one state each in distinct columns: constraint-based estimation (the library's own test,
whatever its significance levels and quantile functions) returns on every valid data set, if and only if all variables have equally many states. -/
theorem constraint_based_returns_iff (P : IndepParams) (s : Structure) (hw : WFStructure s) (ho : OwnColumns s) (hpos : PosCards s)
    {m : List (List Bool)} (hm : buildRemovable s s.total [] = .ok m) :
    (∀ t, DataOK s t → ∃ es, (CBEnv.ctpcSequential ⟨s, s.total, t, independenceTest P⟩ ⟨[], m⟩).1 = .ok es) ↔
      ∀ v ∈ s.vals, ∀ w ∈ s.vals, v = w := by
  constructor
  · intro H
    by_contra hne
    push Not at hne
    -- a child with fewer states than some other variable
    obtain ⟨c, hc, p, hp, hcp⟩ : ∃ c ∈ s.vals, ∃ p ∈ s.vals, c < p := by
      obtain ⟨v, hv, w, hw', hvw⟩ := hne
      rcases Nat.lt_or_gt_of_ne hvw with h | h
      · exact ⟨v, hv, w, hw', h⟩
      · exact ⟨w, hw', v, hv, h⟩
    have hlab : ∀ v ∈ s.vals, ∃ l ∈ s.labels, s.getStatesNumber l = .ok v := by
      intro v hv
      obtain ⟨k, hk⟩ := List.mem_iff_getElem?.1 hv
      have hkl : k < s.labels.length := by
        have := (List.getElem?_eq_some_iff.1 hk).1
        have := hw.valLen
        omega
      refine ⟨s.labels[k], List.getElem_mem hkl, ?_⟩
      unfold Structure.getStatesNumber
      rw [pyIndex_of_mem (List.getElem_mem hkl), Except.bind_ok', hw.nodup.idxOf_getElem k hkl, pyGet_ok]
      exact hk
    obtain ⟨A, hA, hAc⟩ := hlab c hc
    obtain ⟨B, hB, hBp⟩ := hlab p hp
    have hAB : A ≠ B := by rintro rfl; rw [hAc] at hBp; cases hBp; omega
    obtain ⟨i, hi1, hi⟩ := getNodeIndx_mem hw hA
    obtain ⟨j, hj1, hj⟩ := getNodeIndx_mem hw hB
    have hok := twoTop_ok hw ho hpos hA hB hAB hi hj hAc hBp
    obtain ⟨es, hes⟩ := H _ hok
    have hflag : getFlag m j i = .ok true := by
      rw [(removable_matrix_exact hm j i).2 (by simp), if_pos ⟨ho.lt j hj1, ho.lt i hi1⟩]
    set E : CBEnv := ⟨s, s.total, twoTop s.total i j ((c - 1 : Nat) : ℤ) ((p - 1 : Nat) : ℤ), independenceTest P⟩ with hE
    obtain ⟨e, he⟩ := optimize_raises (E := E) hw ho hpos rfl hA hB hAB hi hj hAc hBp hcp rfl hflag
    rw [ctpc_seq_eq (E := E) hw ho.nodup] at hes
    cases hmap : E.struct.labels.mapM (fun n => (E.optimize ⟨[], m⟩ n).1) with
    | error e => rw [hmap] at hes; simp at hes
    | ok ess =>
      obtain ⟨x, hx⟩ := mapM_ok_iff.1 ⟨ess, hmap⟩ A hA
      rw [he] at hx
      cases hx
  · intro hu t ht
    have hc : ∃ c, 0 < c ∧ ∀ v ∈ s.vals, v = c := by
      cases hv : s.vals with
      | nil => exact ⟨1, by omega, by simp⟩
      | cons c vs =>
        exact ⟨c, hpos c (by rw [hv]; simp), fun v h => hu v (by rw [hv]; exact h) c (by rw [hv]; simp)⟩
    obtain ⟨c, hc0, hcu⟩ := hc
    obtain ⟨es, h, -⟩ := constraint_based_returns_partial (E := ⟨s, s.total, t, independenceTest P⟩) (P := P) rfl hw ho.nodup rfl ht hc0 hcu
      (known := []) hm
    exact ⟨es, h⟩

/-- The same in parallel, for every order in which the tasks are completed. -/
theorem constraint_based_parallel_returns_iff (P : IndepParams) (s : Structure) (hw : WFStructure s) (ho : OwnColumns s) (hpos : PosCards s)
    {m : List (List Bool)} (hm : buildRemovable s s.total [] = .ok m) {order : List Label} (horder : order.Perm s.labels) :
    (∀ t, DataOK s t → ∃ es, (CBEnv.ctpcParallel ⟨s, s.total, t, independenceTest P⟩ ⟨[], m⟩ order).1 = .ok es) ↔
      ∀ v ∈ s.vals, ∀ w ∈ s.vals, v = w := by
  rw [← constraint_based_returns_iff P s hw ho hpos hm]
  have key : ∀ t, (CBEnv.ctpcParallel ⟨s, s.total, t, independenceTest P⟩ ⟨[], m⟩ order).1 =
      (CBEnv.ctpcSequential ⟨s, s.total, t, independenceTest P⟩ ⟨[], m⟩).1 :=
    fun t => parallel_equals_sequential (E := ⟨s, s.total, t, independenceTest P⟩) hw ho.nodup m order horder
  simp only [key]

/-- The hypotheses are met by a binary and a three-valued variable (where the condition fails) and by three binary ones (where it holds). -/
example : WFStructure Demo.structMixed2 ∧ OwnColumns Demo.structMixed2 ∧ PosCards Demo.structMixed2 ∧
    buildRemovable Demo.structMixed2 Demo.structMixed2.total [] = .ok [[true, true], [true, true]] ∧
    ¬ (∀ v ∈ Demo.structMixed2.vals, ∀ w ∈ Demo.structMixed2.vals, v = w) :=
  ⟨⟨by decide, rfl, rfl⟩, ⟨by decide, by decide⟩, by unfold PosCards; decide, rfl, by decide⟩
example : WFStructure Demo.struct3 ∧ OwnColumns Demo.struct3 ∧ PosCards Demo.struct3 ∧
    (∀ v ∈ Demo.struct3.vals, ∀ w ∈ Demo.struct3.vals, v = w) :=
  ⟨Demo.struct3_wf, ⟨by decide, by decide⟩, by unfold PosCards; decide, by decide⟩

end PyCTBN
