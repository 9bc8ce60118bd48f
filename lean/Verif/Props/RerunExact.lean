import Verif.Props.CtpcReturns

/-! # When running constraint-based estimation again gives the same edges (C108) -/

namespace PyCTBN
open Spec Indep

/-- After a sequential estimation that returned, the cache is empty. -/
theorem ctpcSequential_cache {E : CBEnv} (hw : WFStructure E.struct) (hnd : E.struct.indexes.Nodup) {m : List (List Bool)} {es : List Edge}
    {st : CBState} (h : E.ctpcSequential ⟨[], m⟩ = (.ok es, st)) : st = ⟨[], st.removable⟩ := by
  obtain ⟨k1, k2⟩ := CBEnv.seqLoop_eq hw hnd m E.struct.labels hw.nodup (fun n hn => hn) m (fun _ _ _ _ _ => rfl)
  have hst : (E.ctpcSeqLoop E.struct.labels ⟨[], m⟩).2 = st ∧ ∃ ess, (E.ctpcSeqLoop E.struct.labels ⟨[], m⟩).1 = .ok ess := by
    unfold CBEnv.ctpcSequential at h
    revert h
    generalize E.ctpcSeqLoop E.struct.labels ⟨[], m⟩ = r
    obtain ⟨r1, s1⟩ := r
    intro h
    cases r1 with
    | error e => simp at h
    | ok ess => simp only [Prod.mk.injEq] at h; exact ⟨h.2, ess, rfl⟩
  obtain ⟨hst, hok⟩ := hst
  obtain ⟨hcache, _⟩ := k2 hok
  rw [hst] at hcache
  obtain ⟨c, r⟩ := st
  simp only at hcache
  rw [hcache]

/-- The matrix left by a sequential estimation, column by column. -/
theorem ctpcSequential_cols {E : CBEnv} (hw : WFStructure E.struct) (hnd : E.struct.indexes.Nodup) {m : List (List Bool)} {es : List Edge}
    {st : CBState} (h : E.ctpcSequential ⟨[], m⟩ = (.ok es, st)) {n : Label} (hn : n ∈ E.struct.labels) {j : Nat}
    (hj : E.struct.getNodeIndx n = .ok j) : CBEnv.ColEq j st.removable (uncachedOptimize E m n).2 := by
  obtain ⟨k1, k2⟩ := CBEnv.seqLoop_eq hw hnd m E.struct.labels hw.nodup (fun n hn => hn) m (fun _ _ _ _ _ => rfl)
  have hst : (E.ctpcSeqLoop E.struct.labels ⟨[], m⟩).2 = st ∧ ∃ ess, (E.ctpcSeqLoop E.struct.labels ⟨[], m⟩).1 = .ok ess := by
    unfold CBEnv.ctpcSequential at h
    revert h
    generalize E.ctpcSeqLoop E.struct.labels ⟨[], m⟩ = r
    obtain ⟨r1, s1⟩ := r
    intro h
    cases r1 with
    | error e => simp at h
    | ok ess => simp only [Prod.mk.injEq] at h; exact ⟨h.2, ess, rfl⟩
  obtain ⟨hst, hok⟩ := hst
  rw [← hst]
  exact ((k2 hok).2 j).1 n hn j hj

/-- An estimation never makes an edge removable again. -/
theorem ctpcSequential_mono {E : CBEnv} (hw : WFStructure E.struct) (hnd : E.struct.indexes.Nodup) {m : List (List Bool)} {es : List Edge}
    {st : CBState} (h : E.ctpcSequential ⟨[], m⟩ = (.ok es, st)) {p n : Label} (hn : n ∈ E.struct.labels)
    (hr : removableEdge E st.removable p n) : removableEdge E m p n := by
  obtain ⟨j, _, hj⟩ := getNodeIndx_mem hw hn
  have hcol := ctpcSequential_cols hw hnd h hn hj
  obtain ⟨c, _, hcs⟩ := getStatesNumber_mem hw hn
  have hr' : removableEdge E (uncachedOptimize E m n).2 p n := by
    obtain ⟨i, j', hi, hj', hf⟩ := hr
    rw [hj] at hj'; injection hj' with hj'; subst hj'
    exact ⟨i, j, hi, hj, by rw [← hcol i]; exact hf⟩
  rw [← flag_iff_removableEdge (c := c)] at hr' ⊢
  have hle : CBEnv.FlagLe E n c m (uncachedOptimize E m n).2 := by
    unfold uncachedOptimize
    rw [hcs]
    simp only
    cases ho : outerLoop (uncached E n c) n 0 (E.others n) (E.startGraph n) m with
    | mk r m1 =>
      have := CBEnv.outerLoop_mono ho
      cases r with
      | error e => exact this
      | ok v => exact this
  exact hle p hr'

/-- **C108** A second sequential estimation with the same estimator returns the same edges if and only if the first one dropped no edge
that it had frozen (an edge removable before and not afterwards). -/
theorem sequential_rerun_same_iff {E : CBEnv} (hw : WFStructure E.struct) (hnd : E.struct.indexes.Nodup)
    {m : List (List Bool)} {es : List Edge} {st : CBState} (h : E.ctpcSequential ⟨[], m⟩ = (.ok es, st)) :
    (E.ctpcSequential st).1 = .ok es ↔
    ¬ ∃ p child, p ∈ E.struct.labels ∧ child ∈ E.struct.labels ∧ p ≠ child ∧ removableEdge E m p child ∧
      ¬ removableEdge E st.removable p child ∧ (p, child) ∉ es := by
  constructor
  · rintro h2 ⟨p, child, hp, hc, hne, -, hnr, hout⟩
    rw [ctpcSequential_cache hw hnd h] at h2
    obtain ⟨⟨i, j, k1, k2, k3⟩, _⟩ := dropped_only_on_evidence hw hnd h2 hp hc hne hout
    exact hnr ⟨i, j, k1, k2, k3⟩
  · intro hno
    refine sequential_rerun_same_partial hw hnd h (fun p child hp hc hne hr hnr => ?_)
    by_contra hout
    exact hno ⟨p, child, hp, hc, hne, hr, hnr, hout⟩

/-- Once a second estimation has given the same edges, it has also frozen nothing more. -/
theorem rerun_same_keeps_matrix {E : CBEnv} (hw : WFStructure E.struct) (hnd : E.struct.indexes.Nodup) {m : List (List Bool)}
    {es : List Edge} {st st' : CBState} (h : E.ctpcSequential ⟨[], m⟩ = (.ok es, st)) (h' : E.ctpcSequential st = (.ok es, st'))
    {p n : Label} (hn : n ∈ E.struct.labels) (hr : removableEdge E st.removable p n) :
    removableEdge E st'.removable p n := by
  have hno := (sequential_rerun_same_iff hw hnd h).1 (by rw [h'])
  obtain ⟨j, _, hj⟩ := getNodeIndx_mem hw hn
  have hcol := ctpcSequential_cols hw hnd h hn hj
  obtain ⟨esc, st1, ho, hmem⟩ := ctpc_result hw hnd (by rw [h]) hn
  have hu : uncachedOptimize E m n = (.ok esc, (uncachedOptimize E m n).2) := by
    refine Prod.ext ?_ rfl
    rw [← (CBEnv.optimize_sim hw hn m).1, ho]
  have hag := CBEnv.uncachedOptimize_again hw hn hu hj hcol (by
    intro q hq hr1 hnr
    rw [← hmem]
    have hq' := CBEnv.others_mem.1 hq
    by_contra hout
    refine hno ⟨q, n, hq'.1, hn, hq'.2, hr1, fun hr' => hnr ?_, hout⟩
    obtain ⟨i, j', hi, hj', hf⟩ := hr'
    rw [hj] at hj'; injection hj' with hj'; subst hj'
    exact ⟨i, j, hi, hj, by rw [← hcol i]; exact hf⟩)
  rw [ctpcSequential_cache hw hnd h] at h'
  have hcol' := ctpcSequential_cols hw hnd h' hn hj
  rw [hag] at hcol'
  obtain ⟨i, j', hi, hj', hf⟩ := hr
  rw [hj] at hj'; injection hj' with hj'; subst hj'
  exact ⟨i, j, hi, hj, by rw [hcol' i]; exact hf⟩

/-- The estimator after `k` sequential estimations. -/
def Spec.afterRuns (E : CBEnv) (m : List (List Bool)) (k : Nat) : CBState := (fun st => (E.ctpcSequential st).2)^[k] ⟨[], m⟩

theorem afterRuns_succ (E : CBEnv) (m : List (List Bool)) (k : Nat) : afterRuns E m (k + 1) = (E.ctpcSequential (afterRuns E m k)).2 := by
  unfold afterRuns
  rw [Function.iterate_succ_apply']

open Classical in
/-- **C109** However often the sequential estimation is repeated (and as long as it returns), its answers change at each of the first
`K` repetitions and never again, for some `K` that is at most the number of ordered pairs of different variables. -/
theorem sequential_rerun_stabilises {E : CBEnv} (hw : WFStructure E.struct) (hnd : E.struct.indexes.Nodup) (m : List (List Bool))
    (hret : ∀ k, ∃ es, (E.ctpcSequential (afterRuns E m k)).1 = .ok es) :
    ∃ K, K ≤ E.struct.labels.length * (E.struct.labels.length - 1) ∧
      (∀ k < K, (E.ctpcSequential (afterRuns E m (k + 1))).1 ≠ (E.ctpcSequential (afterRuns E m k)).1) ∧
      ∀ k ≥ K, (E.ctpcSequential (afterRuns E m k)).1 = (E.ctpcSequential (afterRuns E m K)).1 := by
  -- every run starts with an empty cache
  have hc : ∀ k, afterRuns E m k = ⟨[], (afterRuns E m k).removable⟩ := by
    intro k
    induction k with
    | zero => rfl
    | succ k ih =>
      obtain ⟨es, hes⟩ := hret k
      rw [ih] at hes
      rw [afterRuns_succ, ih]
      exact ctpcSequential_cache hw hnd (Prod.ext hes rfl)
  have hrun : ∀ k, ∃ es, E.ctpcSequential ⟨[], (afterRuns E m k).removable⟩ = (.ok es, afterRuns E m (k + 1)) := by
    intro k
    obtain ⟨es, hes⟩ := hret k
    refine ⟨es, ?_⟩
    rw [← hc k]
    exact Prod.ext hes (afterRuns_succ E m k).symm
  -- removable pairs of different variables
  let pairs : Finset (Label × Label) := (E.struct.labels.toFinset ×ˢ E.struct.labels.toFinset).filter (fun e => e.1 ≠ e.2)
  let R : Nat → Finset (Label × Label) := fun k => pairs.filter (fun e => removableEdge E (afterRuns E m k).removable e.1 e.2)
  have hsub : ∀ k, R (k + 1) ⊆ R k := by
    intro k e he
    obtain ⟨es, hes⟩ := hrun k
    simp only [R, Finset.mem_filter] at he ⊢
    refine ⟨he.1, ctpcSequential_mono hw hnd hes ?_ he.2⟩
    have := he.1
    simp only [pairs, Finset.mem_filter, Finset.mem_product, List.mem_toFinset] at this
    exact this.1.2
  have hlt : ∀ k, (E.ctpcSequential (afterRuns E m (k + 1))).1 ≠ (E.ctpcSequential (afterRuns E m k)).1 → (R (k + 1)).card < (R k).card := by
    intro k hk
    obtain ⟨es, hes⟩ := hrun k
    have h0 : (E.ctpcSequential (afterRuns E m k)).1 = .ok es := by rw [hc k, hes]
    rw [h0] at hk
    have := mt (sequential_rerun_same_iff hw hnd hes).2 hk
    push Not at this
    obtain ⟨p, n, hp, hn, hne, h1, h2, -⟩ := this
    refine Finset.card_lt_card ⟨hsub k, fun hh => ?_⟩
    have hin : (p, n) ∈ R k := by
      simp only [R, pairs, Finset.mem_filter, Finset.mem_product, List.mem_toFinset]
      exact ⟨⟨⟨hp, hn⟩, hne⟩, h1⟩
    exact h2 (Finset.mem_filter.1 (hh hin)).2
  have hstay : ∀ k, (E.ctpcSequential (afterRuns E m (k + 1))).1 = (E.ctpcSequential (afterRuns E m k)).1 →
      (E.ctpcSequential (afterRuns E m (k + 1 + 1))).1 = (E.ctpcSequential (afterRuns E m (k + 1))).1 := by
    intro k hk
    obtain ⟨es, hes⟩ := hrun k
    obtain ⟨es', hes'⟩ := hrun (k + 1)
    have h0 : (E.ctpcSequential (afterRuns E m k)).1 = .ok es := by rw [hc k, hes]
    have h1 : (E.ctpcSequential (afterRuns E m (k + 1))).1 = .ok es' := by rw [hc (k + 1), hes']
    have he : es' = es := by rw [h0, h1] at hk; injection hk
    subst he
    rw [h1]
    refine (sequential_rerun_same_iff hw hnd hes').2 ?_
    rintro ⟨p, n, hp, hn, hne, r1, r2, -⟩
    exact r2 (rerun_same_keeps_matrix hw hnd hes (by rw [hc (k + 1)]; exact hes') hn r1)
  have hcard : ∀ K, (∀ k < K, (E.ctpcSequential (afterRuns E m (k + 1))).1 ≠ (E.ctpcSequential (afterRuns E m k)).1) →
      K + (R K).card ≤ (R 0).card := by
    intro K
    induction K with
    | zero => intro _; simp
    | succ K ih =>
      intro h
      have a := ih (fun k hk => h k (by omega))
      have b := hlt K (h K (by omega))
      omega
  have hR0 : (R 0).card ≤ E.struct.labels.length * (E.struct.labels.length - 1) := by
    refine (Finset.card_filter_le _ _).trans ?_
    have hp : pairs = E.struct.labels.toFinset.offDiag := by
      ext e
      simp only [pairs, Finset.mem_filter, Finset.mem_product, Finset.mem_offDiag]
      tauto
    rw [hp, Finset.offDiag_card, List.toFinset_card_of_nodup hw.nodup, Nat.mul_sub, Nat.mul_one]
  have hex : ∃ k, (E.ctpcSequential (afterRuns E m (k + 1))).1 = (E.ctpcSequential (afterRuns E m k)).1 := by
    by_contra hno
    push Not at hno
    have := hcard ((R 0).card + 1) (fun k _ => hno k)
    omega
  refine ⟨Nat.find hex, ?_, fun k hk => Nat.find_min hex hk, fun k hk => ?_⟩
  · have := hcard (Nat.find hex) (fun k hk => Nat.find_min hex hk)
    omega
  · have hall : ∀ d, (E.ctpcSequential (afterRuns E m (Nat.find hex + d + 1))).1 = (E.ctpcSequential (afterRuns E m (Nat.find hex + d))).1 := by
      intro d
      induction d with
      | zero => exact Nat.find_spec hex
      | succ d ih => exact hstay _ ih
    obtain ⟨d, rfl⟩ := Nat.exists_eq_add_of_le hk
    induction d with
    | zero => rfl
    | succ d ih => exact (hall d).trans (ih (by omega))

/-- Every one of any number of sequential estimations returns, on valid data with equally many states everywhere. -/
theorem reruns_return {E : CBEnv} {P : IndepParams} (h2 : E.twoCim = independenceTest P) (hw : WFStructure E.struct)
    (hnd : E.struct.indexes.Nodup) (htot : E.tot = E.struct.total) (hd : DataOK E.struct E.traj) {c : Nat} (hc : 0 < c)
    (hu : ∀ v ∈ E.struct.vals, v = c) {known : List Edge} {m : List (List Bool)} (hm : buildRemovable E.struct E.tot known = .ok m) (k : Nat) :
    ∃ es, (E.ctpcSequential (afterRuns E m k)).1 = .ok es := by
  have step : ∀ m, FlagsDefined E.struct m → ∃ es, (E.ctpcSequential ⟨[], m⟩).1 = .ok es := by
    intro m hm
    obtain ⟨ess, hess⟩ := mapM_ok_iff.2 (fun n hn => search_returns h2 hw htot hd hc hu hm (child := n) hn)
    exact ⟨ess.flatten, by rw [ctpc_seq_eq hw hnd, hess]; rfl⟩
  have keep : ∀ m, FlagsDefined E.struct m → FlagsDefined E.struct (E.ctpcSequential ⟨[], m⟩).2.removable := by
    intro m hm i j hi hj
    obtain ⟨es, hes⟩ := step m hm
    obtain ⟨k1, k2⟩ := CBEnv.seqLoop_eq hw hnd m E.struct.labels hw.nodup (fun n hn => hn) m (fun _ _ _ _ _ => rfl)
    have h : E.ctpcSequential ⟨[], m⟩ = (.ok es, (E.ctpcSequential ⟨[], m⟩).2) := Prod.ext hes rfl
    by_cases hj' : ∃ n ∈ E.struct.labels, E.struct.getNodeIndx n = .ok j
    · obtain ⟨n, hn, hnj⟩ := hj'
      have hcol := ctpcSequential_cols hw hnd h hn hnj
      obtain ⟨es', m', hu', hf⟩ := uncached_returns h2 hw htot hd hc hu hm hn
      rw [hcol i, hu']
      exact hf i j hi hj
    · push Not at hj'
      have hst : (E.ctpcSeqLoop E.struct.labels ⟨[], m⟩).2 = (E.ctpcSequential ⟨[], m⟩).2 ∧
          ∃ ess, (E.ctpcSeqLoop E.struct.labels ⟨[], m⟩).1 = .ok ess := by
        revert h
        generalize (E.ctpcSequential ⟨[], m⟩).2 = st
        unfold CBEnv.ctpcSequential
        generalize E.ctpcSeqLoop E.struct.labels ⟨[], m⟩ = r
        obtain ⟨r1, s1⟩ := r
        intro h
        cases r1 with
        | error e => simp at h
        | ok ess => simp only [Prod.mk.injEq] at h; exact ⟨h.2, ess, rfl⟩
      have := ((k2 hst.2).2 j).2 hj' i
      rw [hst.1] at this
      rw [this]
      exact hm i j hi hj
  have hinv : ∀ k, afterRuns E m k = ⟨[], (afterRuns E m k).removable⟩ ∧ FlagsDefined E.struct (afterRuns E m k).removable := by
    intro k
    induction k with
    | zero => exact ⟨rfl, buildRemovable_flags (by rw [← htot]; exact hm)⟩
    | succ k ih =>
      obtain ⟨es, hes⟩ := step _ ih.2
      rw [afterRuns_succ, ih.1]
      exact ⟨ctpcSequential_cache hw hnd (Prod.ext hes rfl), keep _ ih.2⟩
  rw [(hinv k).1]
  exact step _ (hinv k).2

/-- The edge a second estimation adds is one of the frozen and dropped ones; every such edge is added. -/
theorem sequential_rerun_adds {E : CBEnv} (hw : WFStructure E.struct) (hnd : E.struct.indexes.Nodup)
    {m : List (List Bool)} {es es' : List Edge} {st : CBState} (h : E.ctpcSequential ⟨[], m⟩ = (.ok es, st))
    (h' : (E.ctpcSequential st).1 = .ok es') {p child : Label} (hp : p ∈ E.struct.labels) (hc : child ∈ E.struct.labels) (hne : p ≠ child)
    (hf : ¬ removableEdge E st.removable p child) : (p, child) ∈ es' := by
  by_contra hout
  rw [ctpcSequential_cache hw hnd h] at h'
  obtain ⟨⟨i, j, k1, k2, k3⟩, _⟩ := dropped_only_on_evidence hw hnd h' hp hc hne hout
  exact hf ⟨i, j, k1, k2, k3⟩

/-- On valid data with equally many states everywhere no estimation leaves anything in the cache, whatever the known edges: the
exception that C29 needs cannot happen. -/
theorem no_leak_on_uniform_data {E : CBEnv} {P : IndepParams} (h2 : E.twoCim = independenceTest P) (hw : WFStructure E.struct)
    (hnd : E.struct.indexes.Nodup) (htot : E.tot = E.struct.total) (hd : DataOK E.struct E.traj) {c : Nat} (hc : 0 < c)
    (hu : ∀ v ∈ E.struct.vals, v = c) {known : List Edge} {m : List (List Bool)} (hm : buildRemovable E.struct E.tot known = .ok m) :
    (E.ctpcSequential ⟨[], m⟩).2.cache = [] := by
  obtain ⟨es, h, _⟩ := constraint_based_returns_partial h2 hw hnd htot hd hc hu hm
  have := ctpcSequential_cache hw hnd (st := (E.ctpcSequential ⟨[], m⟩).2) (Prod.ext h rfl)
  rw [this]

/-- The right-hand side of C108 is not always met, and C109 is not always met with `K = 0`: a first run that freezes an edge and drops it. -/
example : (Demo.envRerun.ctpcSequential ⟨[], List.replicate 4 (List.replicate 4 true)⟩).1 = .ok [("X", "P"), ("X", "R"), ("R", "X")] ∧
    getFlag (Demo.envRerun.ctpcSequential ⟨[], List.replicate 4 (List.replicate 4 true)⟩).2.removable 0 3 = .ok false := by
  rw [CBEnv.sequential_eq_F]
  constructor <;> decide +kernel

/-- The hypotheses of C109 are met. -/
example (P : IndepParams) : ∀ k, ∃ es, (CBEnv.ctpcSequential ⟨Demo.struct3, 3, Demo.data, independenceTest P⟩
    (afterRuns ⟨Demo.struct3, 3, Demo.data, independenceTest P⟩ [[true, true, true], [true, true, true], [false, true, true]] k)).1 = .ok es :=
  reruns_return (E := ⟨Demo.struct3, 3, Demo.data, independenceTest P⟩) (c := 2)
    (known := [("C", "A")]) rfl Demo.struct3_wf (by change Demo.struct3.indexes.Nodup; decide) rfl
    Demo.data_ok (by decide) (by change ∀ v ∈ Demo.struct3.vals, v = 2; decide) (by rfl)

end PyCTBN
