import Verif.Lemmas.TrajGen

/-!
# Sampling: C68-C73, C75
-/

namespace PyCTBN
open Spec

section
variable {net : SampleNet} {N : Ctbn} {tEnd : ℚ} {maxTr : ℤ} {draws : SampleDraws}

/-! ## The states the loop goes through -/

/-- What holds of every state the loop goes through. -/
structure GoodState (N : Ctbn) (s : SampleState) : Prop where
  len : s.rows.length = s.nTr + 1
  inRange : ∀ r ∈ s.rows, N.InRange r.2
  first : s.rows[0]? = some (0, N.vars.map (fun _ => 0))
  diff : ∀ (n : Nat) (a b : ℚ × List Nat), s.rows[n]? = some a → s.rows[n + 1]? = some b → ∃ i, DifferOnlyAt i a.2 b.2
  timers : s.timers.length = N.vars.length

theorem zeros_inRange (hOK : N.OK) : N.InRange (N.vars.map (fun _ => 0)) := by
  refine ⟨by simp, fun v hv => ?_⟩
  have : N.state (N.vars.map (fun _ => 0)) v = 0 := by
    unfold Ctbn.state
    rw [List.getElem?_map]
    cases N.vars[N.vars.idxOf v]? <;> rfl
  rw [this]; exact hOK.pos v hv

theorem GoodState.last {s : SampleState} (h : GoodState N s) : ∃ cur, s.rows.getLast? = some cur ∧ s.rows[s.nTr]? = some cur ∧ N.InRange cur.2 := by
  have hne : s.rows ≠ [] := by intro e; have := h.len; rw [e] at this; simp at this
  refine ⟨_, List.getLast?_eq_some_getLast hne, ?_, h.inRange _ (List.getLast_mem hne)⟩
  rw [← List.getLast?_eq_some_getLast hne, List.getLast?_eq_getElem?, h.len]
  rfl

theorem set_differs {vals : List Nat} {k y : Nat} (hk : k < vals.length) (hy : vals[k]? ≠ some y) : DifferOnlyAt k vals (vals.set k y) := by
  refine ⟨by simp, ?_, fun j hj => ?_⟩
  · rw [List.getElem?_set_self hk]; exact hy
  · rw [List.getElem?_set_ne (Ne.symm hj)]

theorem good_init (hD : Describes net N) (hOK : N.OK) : GoodState N net.initState := by
  refine ⟨rfl, ?_, ?_, ?_, ?_⟩
  · intro r hr
    simp only [SampleNet.initState, List.mem_singleton] at hr
    subst hr
    rw [hD.vnames]; exact zeros_inRange hOK
  · simp [SampleNet.initState, hD.vnames]
  · intro n a b _ hb
    simp [SampleNet.initState] at hb
  · simp [SampleNet.initState, hD.vnames]

theorem state_getElem (hOK : N.OK) {vals : List Nat} (hr : N.InRange vals) {k : Nat} {v : Label} (hk : N.vars[k]? = some v) :
    vals[k]? = some (N.state vals v) := by
  have hkl : k < vals.length := by rw [hr.1]; exact (List.getElem?_eq_some_iff.1 hk).1
  unfold Ctbn.state
  rw [idxOf_of_getElem? hOK.nodup hk, List.getElem?_eq_getElem hkl]; rfl

theorem good_step (hD : Describes net N) (hOK : N.OK) {s s' : SampleState} (h : GoodState N s) (hs : net.step tEnd maxTr draws s = .ok (.next s')) :
    GoodState N s' := by
  obtain ⟨cur, c1, c2, c3⟩ := h.last
  obtain ⟨times, k, t, v, e1, e2, e3, e4, e5, e6⟩ := step_spec (tEnd := tEnd) (maxTr := maxTr) (draws := draws) hD hOK c1 c3 h.timers
  rcases e6 with ⟨-, e⟩ | ⟨-, y, y1, y2, y3, e⟩
  · rw [hs] at e; cases e
  · rw [hs] at e
    simp only [Except.ok.injEq, SampleStep.next.injEq] at e
    subst e
    refine ⟨by simp [h.len], ?_, ?_, ?_, (undefine_spec hD hOK e2).1⟩
    · intro r hr
      rcases List.mem_append.1 hr with hr | hr
      · exact h.inRange r hr
      · rw [List.mem_singleton] at hr
        subst hr
        exact inRange_set hOK c3 e3 y1
    · show (s.rows ++ _)[0]? = _
      rw [List.getElem?_append_left (by rw [h.len]; omega)]
      exact h.first
    · intro n a b ha hb
      dsimp only at ha hb
      rcases Nat.lt_or_ge (n + 1) s.rows.length with hn | hn
      · rw [List.getElem?_append_left (by omega)] at ha hb
        exact h.diff n a b ha hb
      · have hn1 : n + 1 < (s.rows ++ [(round4 t, cur.2.set k y)]).length := (List.getElem?_eq_some_iff.1 hb).1
        have hn2 : n + 1 = s.rows.length := by simp at hn1; omega
        rw [hn2, List.getElem?_append_right (le_refl _)] at hb
        simp only [Nat.sub_self, List.getElem?_cons_zero, Option.some.injEq] at hb
        rw [List.getElem?_append_left (by omega)] at ha
        have : n = s.nTr := by rw [h.len] at hn2; omega
        rw [this, c2] at ha
        cases Option.some.inj ha
        subst hb
        refine ⟨k, set_differs (by rw [c3.1]; exact (List.getElem?_eq_some_iff.1 e3).1) ?_⟩
        rw [state_getElem hOK c3 e3]
        exact fun e => y2 (Option.some.inj e).symm

theorem good_of_visits (hD : Describes net N) (hOK : N.OK) {s : SampleState} (h : Visits net tEnd maxTr draws s) : GoodState N s := by
  induction h with
  | init => exact good_init hD hOK
  | step _ hs ih => exact good_step hD hOK ih hs

/-- A returned frame is that of the last state gone through. -/
theorem samples_visits {rows : RawTraj} (h : Samples net tEnd maxTr draws rows) :
    ∃ s, Visits net tEnd maxTr draws s ∧ net.step tEnd maxTr draws s = .ok (.done rows) := by
  obtain ⟨fuel, h⟩ := h
  have : ∀ fuel s, Visits net tEnd maxTr draws s → net.run tEnd maxTr draws fuel s = .ok rows →
      ∃ s, Visits net tEnd maxTr draws s ∧ net.step tEnd maxTr draws s = .ok (.done rows) := by
    intro fuel
    induction fuel with
    | zero => intro s _ h; cases h
    | succ fuel ih =>
      intro s hv h
      rw [SampleNet.run] at h
      cases hs : net.step tEnd maxTr draws s with
      | error e => rw [hs] at h; simp at h
      | ok o =>
        rw [hs] at h
        simp only [Except.bind_ok'] at h
        cases o with
        | done r =>
          simp only [Except.pure_eq_ok', Except.ok.injEq] at h
          subst h
          exact ⟨s, hv, hs⟩
        | next s' => exact ih s' (.step hv hs) h
  exact this fuel _ .init h

theorem done_rows (hD : Describes net N) (hOK : N.OK) {s : SampleState} (hv : Visits net tEnd maxTr draws s) {rows : RawTraj}
    (hs : net.step tEnd maxTr draws s = .ok (.done rows)) : rows = SampleNet.terminate s.rows := by
  have h := good_of_visits hD hOK hv
  obtain ⟨cur, c1, c2, c3⟩ := h.last
  obtain ⟨times, k, t, v, e1, e2, e3, e4, e5, e6⟩ := step_spec (tEnd := tEnd) (maxTr := maxTr) (draws := draws) hD hOK c1 c3 h.timers
  rcases e6 with ⟨-, e⟩ | ⟨-, y, y1, y2, y3, e⟩
  · rw [hs] at e; simpa using e
  · rw [hs] at e; cases e

theorem terminate_length (rows : List (ℚ × List Nat)) : (SampleNet.terminate rows).length = rows.length := by
  unfold SampleNet.terminate
  cases rows using List.reverseRecOn with
  | nil => rfl
  | append_singleton l a => simp

theorem terminate_getElem? {rows : List (ℚ × List Nat)} {n : Nat} (hn : n + 1 < rows.length) :
    (SampleNet.terminate rows)[n]? = rows[n]?.map (fun r => (r.1, r.2.map (fun x : Nat => (x : ℤ)))) := by
  unfold SampleNet.terminate
  rw [List.getElem?_append_left (by simp; omega), List.getElem?_map, List.getElem?_dropLast, if_pos (by omega)]

theorem terminate_last {rows : List (ℚ × List Nat)} {r : ℚ × List Nat} (h : rows.getLast? = some r) :
    (SampleNet.terminate rows).getLast? = some (r.1, r.2.map (fun _ => (-1 : ℤ))) := by
  unfold SampleNet.terminate
  rw [h]; simp

/-! ## C68 -/

/-- **C68.**  In a trajectory returned by `CTBN_Sample` on a usable network, whatever the draws: the last row is all -1; the rows before
it are joint states within the cardinalities, the first of them all zeros; and consecutive ones differ in exactly one variable. -/
theorem sample_shape (hD : Describes net N) (hOK : N.OK) {rows : RawTraj} (h : Samples net tEnd maxTr draws rows) :
    ∃ (before : List (ℚ × List Nat)) (t : ℚ),
      rows = before.map (fun r => (r.1, r.2.map (fun x : Nat => (x : ℤ)))) ++ [(t, N.vars.map (fun _ => (-1 : ℤ)))] ∧
      (∀ r ∈ before, N.InRange r.2) ∧ (∀ r, before[0]? = some r → r = (0, N.vars.map (fun _ => 0))) ∧
      ∀ (n : Nat) (a b : ℚ × List Nat), before[n]? = some a → before[n + 1]? = some b → ∃ i, DifferOnlyAt i a.2 b.2 := by
  obtain ⟨s, hv, hs⟩ := samples_visits h
  have hg := good_of_visits hD hOK hv
  obtain ⟨cur, c1, c2, c3⟩ := hg.last
  rw [done_rows hD hOK hv hs]
  have hle : ∀ (n : Nat) r, s.rows.dropLast[n]? = some r → s.rows[n]? = some r := by
    intro n r hr
    rw [List.getElem?_dropLast] at hr
    split at hr
    · exact hr
    · cases hr
  refine ⟨s.rows.dropLast, cur.1, ?_, fun r hr => hg.inRange r (List.dropLast_subset _ hr), ?_, ?_⟩
  · unfold SampleNet.terminate
    rw [c1]
    simp only [Option.toList_some, List.map_cons, List.map_nil]
    have : cur.2.map (fun _ => (-1 : ℤ)) = N.vars.map (fun _ => (-1 : ℤ)) := by
      rw [List.map_const', List.map_const', c3.1]
    rw [this]
  · intro r hr
    have := hle 0 r hr
    rw [hg.first] at this
    exact (Option.some.inj this).symm
  · intro n a b ha hb
    exact hg.diff n a b (hle _ _ ha) (hle _ _ hb)

/-! ## C69 -/

theorem terminate_times (rows : List (ℚ × List Nat)) : (SampleNet.terminate rows).map Prod.fst = rows.map Prod.fst := by
  unfold SampleNet.terminate
  cases rows using List.reverseRecOn with
  | nil => rfl
  | append_singleton l a => simp [Function.comp_def]

/-- What holds of the times in every state the loop goes through. -/
structure TimeState (tEnd : ℚ) (s : SampleState) : Prop where
  nonneg : 0 ≤ s.t
  last : (s.rows.map Prod.fst).getLast? = some (round4 s.t)
  sorted : (s.rows.map Prod.fst).Pairwise (· ≤ ·)
  pending : ∀ (i : Nat) (x : ℚ), s.timers[i]? = some (some x) → s.t ≤ x
  bound : tEnd ≠ -1 → 0 ≤ tEnd → s.t ≤ tEnd

theorem times_step (hD : Describes net N) (hOK : N.OK) (hexp : ∀ n i, 0 ≤ draws.exp n i) {s s' : SampleState} (h : GoodState N s)
    (ht : TimeState tEnd s) (hs : net.step tEnd maxTr draws s = .ok (.next s')) : TimeState tEnd s' := by
  obtain ⟨cur, c1, c2, c3⟩ := h.last
  obtain ⟨times, k, t, v, e1, e2, e3, e4, e5, e6⟩ := step_spec (tEnd := tEnd) (maxTr := maxTr) (draws := draws) hD hOK c1 c3 h.timers
  obtain ⟨times', f1, f2, f3⟩ := fillTimers_spec hD hOK c3 s.t (draws.exp s.nTr) h.timers
  rw [e1] at f1
  cases f1
  have hge : ∀ (i : Nat) (x : ℚ), times[i]? = some x → s.t ≤ x := by
    intro i x hx
    have hi : i < N.vars.length := by rw [← e2]; exact (List.getElem?_eq_some_iff.1 hx).1
    have hvi := List.getElem?_eq_getElem hi
    have hti := List.getElem?_eq_getElem (l := s.timers) (i := i) (by rw [h.timers]; exact hi)
    have := f3 i _ _ hvi hti
    rw [hx] at this
    have := Option.some.inj this
    subst this
    cases ho : s.timers[i]'(by rw [h.timers]; exact hi) with
    | some z =>
      rw [ho] at hti
      exact ht.pending i z hti
    | none =>
      simp only [Option.getD_none]
      have := mul_nonneg (exitRate_nonneg hD hOK c3 (List.getElem_mem hi)) (hexp s.nTr i)
      linarith
  rcases e6 with ⟨-, e⟩ | ⟨hst, y, y1, y2, y3, e⟩
  · rw [hs] at e; cases e
  · rw [hs] at e
    simp only [Except.ok.injEq, SampleStep.next.injEq] at e
    subst e
    have htt := hge k t e4
    refine ⟨ht.nonneg.trans htt, by simp, ?_, ?_, ?_⟩
    · dsimp only
      rw [List.map_append, List.pairwise_append]
      refine ⟨ht.sorted, by simp, ?_⟩
      intro a ha b hb
      simp only [List.map_cons, List.map_nil, List.mem_singleton] at hb
      subst hb
      refine le_trans ?_ (round4_mono htt)
      have hl := ht.last
      obtain ⟨l, hl'⟩ := List.getLast?_eq_some_iff.1 hl
      have hs := ht.sorted
      rw [hl'] at hs ha
      rcases List.mem_append.1 ha with ha | ha
      · exact (List.pairwise_append.1 hs).2.2 a ha _ (by simp)
      · rw [List.mem_singleton] at ha; exact le_of_eq ha
    · intro i x hx
      dsimp only at hx ⊢
      have hi : i < N.vars.length := by
        rw [← (undefine_spec (k := k) (v := v) hD hOK e2).1]; exact (List.getElem?_eq_some_iff.1 hx).1
      have hxt := List.getElem?_eq_getElem (l := times) (i := i) (by rw [e2]; exact hi)
      rw [(undefine_spec (k := k) (v := v) hD hOK e2).2 i _ _ (List.getElem?_eq_getElem hi) hxt] at hx
      have hx := Option.some.inj hx
      split at hx
      · cases hx
      · cases Option.some.inj hx
        exact e5 _ (List.getElem_mem _)
    · intro h1 h2
      unfold SampleNet.stops at hst
      simp only [Bool.or_eq_false_iff, Bool.and_eq_false_iff, decide_eq_false_iff_not, not_le] at hst
      rcases hst.2 with h | h
      · exact absurd h1 h
      · exact h.le

theorem times_of_visits (hD : Describes net N) (hOK : N.OK) (hexp : ∀ n i, 0 ≤ draws.exp n i) {s : SampleState}
    (h : Visits net tEnd maxTr draws s) : TimeState tEnd s := by
  induction h with
  | init =>
    refine ⟨le_refl _, by simp [SampleNet.initState, round4_zero], by simp [SampleNet.initState], ?_, fun _ h => h⟩
    intro i x hx
    simp only [SampleNet.initState, List.getElem?_map] at hx
    cases hv : net.vnames[i]? with
    | none => rw [hv] at hx; simp at hx
    | some v => rw [hv] at hx; simp at hx
  | step hv hs ih => exact times_step hD hOK hexp (good_of_visits hD hOK hv) ih hs

/-- **C69.**  The times of a returned trajectory start with 0 and never decrease; with an end time (`t_end ≥ 0`) they are never beyond it
(rounded like the times themselves). -/
theorem sample_times_ordered (hD : Describes net N) (hOK : N.OK) (hexp : ∀ n i, 0 ≤ draws.exp n i) {rows : RawTraj}
    (h : Samples net tEnd maxTr draws rows) :
    (rows.map Prod.fst)[0]? = some 0 ∧ (rows.map Prod.fst).Pairwise (· ≤ ·) ∧
      (0 ≤ tEnd → ∀ r ∈ rows, r.1 ≤ round4 tEnd) := by
  obtain ⟨s, hv, hs⟩ := samples_visits h
  have hg := good_of_visits hD hOK hv
  have ht := times_of_visits hD hOK hexp hv
  rw [done_rows hD hOK hv hs, terminate_times]
  refine ⟨by rw [List.getElem?_map, hg.first]; rfl, ht.sorted, ?_⟩
  intro h0 r hr
  have hr' : r.1 ∈ s.rows.map Prod.fst := by rw [← terminate_times]; exact List.mem_map_of_mem hr
  refine le_trans ?_ (round4_mono (ht.bound (by linarith) h0))
  obtain ⟨l, hl'⟩ := List.getLast?_eq_some_iff.1 ht.last
  have hs := ht.sorted
  rw [hl'] at hs hr'
  rcases List.mem_append.1 hr' with ha | ha
  · exact (List.pairwise_append.1 hs).2.2 _ ha _ (by simp)
  · rw [List.mem_singleton] at ha; exact le_of_eq ha

/-! ## C70 -/

/-- From a well-formed state a pass never fails. -/
theorem step_returns (hD : Describes net N) (hOK : N.OK) (tEnd : ℚ) (maxTr : ℤ) (draws : SampleDraws) {s : SampleState} (h : GoodState N s) :
    (∃ t, SampleNet.stops tEnd maxTr t s.nTr = true ∧ net.step tEnd maxTr draws s = .ok (.done (SampleNet.terminate s.rows))) ∨
    ∃ s' t, SampleNet.stops tEnd maxTr t s.nTr = false ∧ net.step tEnd maxTr draws s = .ok (.next s') ∧ s'.nTr = s.nTr + 1 := by
  obtain ⟨cur, c1, c2, c3⟩ := h.last
  obtain ⟨times, k, t, v, e1, e2, e3, e4, e5, e6⟩ := step_spec (tEnd := tEnd) (maxTr := maxTr) (draws := draws) hD hOK c1 c3 h.timers
  rcases e6 with ⟨hst, e⟩ | ⟨hst, y, y1, y2, y3, e⟩
  · exact .inl ⟨t, hst, e⟩
  · exact .inr ⟨_, t, hst, e, rfl⟩

theorem run_returns (hD : Describes net N) (hOK : N.OK) (tEnd : ℚ) (m : Nat) (draws : SampleDraws) :
    ∀ (fuel : Nat) (s : SampleState), GoodState N s → s.nTr ≤ m → m < fuel + s.nTr →
      ∃ rows, net.run tEnd m draws fuel s = .ok rows ∧ rows.length ≤ m + 1 ∧ (tEnd = -1 → rows.length = m + 1) := by
  intro fuel
  induction fuel with
  | zero => intro s _ h1 h2; omega
  | succ fuel ih =>
    intro s hg h1 h2
    rw [SampleNet.run]
    rcases step_returns hD hOK tEnd m draws hg with ⟨t, hst, e⟩ | ⟨s', t, hst, e, hn⟩
    · rw [e]
      refine ⟨_, rfl, by rw [terminate_length, hg.len]; omega, ?_⟩
      intro hte
      rw [terminate_length, hg.len]
      unfold SampleNet.stops at hst
      simp only [hte, ne_eq, not_true_eq_false, decide_false, Bool.false_and, Bool.or_false, Bool.and_eq_true, decide_eq_true_eq] at hst
      omega
    · rw [e]
      simp only [Except.bind_ok']
      refine ih s' (good_step hD hOK hg e) ?_ (by omega)
      unfold SampleNet.stops at hst
      simp only [Bool.or_eq_false_iff, Bool.and_eq_false_iff, decide_eq_false_iff_not] at hst
      rcases hst.1 with h | h
      · exact absurd (show ((m : ℤ) ≠ -1) by omega) h
      · omega

/-- **C70.**  With a limit of `m` transitions `CTBN_Sample` always returns (and at the latest in pass `m + 1`), with at most `m + 1` rows;
without an end time, with exactly `m + 1` rows. -/
theorem sample_max_transitions (hD : Describes net N) (hOK : N.OK) (tEnd : ℚ) (m : Nat) (draws : SampleDraws) :
    ∃ rows, Samples net tEnd m draws rows ∧ rows.length ≤ m + 1 ∧ (tEnd = -1 → rows.length = m + 1) := by
  obtain ⟨rows, h1, h2⟩ := run_returns hD hOK tEnd m draws (m + 1) net.initState (good_init hD hOK) (by simp [SampleNet.initState])
    (by simp [SampleNet.initState])
  exact ⟨rows, ⟨m + 1, h1⟩, h2⟩

/-- The number of passes allowed does not change the result. -/
theorem run_fuel_mono {fuel fuel' : Nat} (hf : fuel ≤ fuel') : ∀ {s : SampleState} {rows : RawTraj},
    net.run tEnd maxTr draws fuel s = .ok rows → net.run tEnd maxTr draws fuel' s = .ok rows := by
  induction fuel generalizing fuel' with
  | zero => intro s rows h; cases h
  | succ fuel ih =>
    intro s rows h
    cases fuel' with
    | zero => omega
    | succ fuel' =>
      rw [SampleNet.run] at h ⊢
      cases hs : net.step tEnd maxTr draws s with
      | error e => rw [hs] at h; simp at h
      | ok o =>
        rw [hs] at h
        simp only [Except.bind_ok'] at h ⊢
        cases o with
        | done r => exact h
        | next s' => exact ih (by omega) h

/-- A sampler given the same limits and draws returns one result. -/
theorem samples_unique {rows rows' : RawTraj} (h : Samples net tEnd maxTr draws rows) (h' : Samples net tEnd maxTr draws rows') : rows = rows' := by
  obtain ⟨f, h⟩ := h
  obtain ⟨f', h'⟩ := h'
  have e1 := run_fuel_mono (Nat.le_max_left f f') h
  have e2 := run_fuel_mono (Nat.le_max_right f f') h'
  rw [e1] at e2
  exact Except.ok.inj e2

/-- **C70.**  With neither limit (`t_end = -1`, `max_tr = -1`, the defaults; or any negative `max_tr`) `CTBN_Sample` never returns. -/
theorem sample_without_limit (hD : Describes net N) (hOK : N.OK) (draws : SampleDraws) {m : ℤ} (hm : m < 0) : RunsForever net (-1) m draws := by
  intro fuel
  have : ∀ (fuel : Nat) (s : SampleState), GoodState N s → net.run (-1) m draws fuel s = .error .outOfFuel := by
    intro fuel
    induction fuel with
    | zero => intro s _; rfl
    | succ fuel ih =>
      intro s hg
      rw [SampleNet.run]
      rcases step_returns hD hOK (-1) m draws hg with ⟨t, hst, e⟩ | ⟨s', t, hst, e, hn⟩
      · unfold SampleNet.stops at hst
        simp only [ne_eq, not_true_eq_false, decide_false, Bool.false_and, Bool.or_false, Bool.and_eq_true, decide_eq_true_eq] at hst
        omega
      · rw [e]
        exact ih s' (good_step hD hOK hg e)
  exact this fuel _ (good_init hD hOK)

/-! ## C71 -/

/-- Where the event times come from. -/
structure ProvState (N : Ctbn) (net : SampleNet) (tEnd : ℚ) (maxTr : ℤ) (draws : SampleDraws) (s : SampleState) : Prop where
  defined : ∀ (i : Nat) (v : Label) (x : ℚ) (cur : ℚ × List Nat), N.vars[i]? = some v → s.rows.getLast? = some cur →
    s.timers[i]? = some (some x) → DrawnForCurrent N net tEnd maxTr draws s cur.2 v i x
  undefined : ∀ (i : Nat) (v : Label) (cur : ℚ × List Nat), N.vars[i]? = some v → s.rows.getLast? = some cur →
    s.timers[i]? = some none → s.nTr = 0 ∨ ∃ r : ℚ × List Nat, s.rows[s.nTr - 1]? = some r ∧ ¬ FamilyAgrees N v r.2 cur.2

/-- The filled event times in such a state. -/
theorem filled_of_prov (hD : Describes net N) (hOK : N.OK) {s : SampleState} (hv : Visits net tEnd maxTr draws s)
    (hp : ProvState N net tEnd maxTr draws s) {cur : ℚ × List Nat} (hc : s.rows.getLast? = some cur) {times : List ℚ}
    (ht : net.fillTimers cur.2 s.t (draws.exp s.nTr) s.timers = .ok times) {i : Nat} {v : Label} {x : ℚ} (hi : N.vars[i]? = some v)
    (hx : times[i]? = some x) : DrawnForCurrent N net tEnd maxTr draws s cur.2 v i x := by
  have h := good_of_visits hD hOK hv
  obtain ⟨cur', c1, c2, c3⟩ := h.last
  rw [hc] at c1
  cases Option.some.inj c1
  obtain ⟨times', f1, f2, f3⟩ := fillTimers_spec hD hOK c3 s.t (draws.exp s.nTr) h.timers
  rw [ht] at f1
  cases f1
  have hil := (List.getElem?_eq_some_iff.1 hi).1
  have hti := List.getElem?_eq_getElem (l := s.timers) (i := i) (by rw [h.timers]; exact hil)
  have hxx := f3 i _ _ hi hti
  rw [hx] at hxx
  have hxx := Option.some.inj hxx
  cases ho : s.timers[i]'(by rw [h.timers]; exact hil) with
  | some z =>
    rw [ho] at hti hxx
    simp only [Option.getD_some] at hxx
    subst hxx
    exact hp.defined i v x cur hi hc hti
  | none =>
    rw [ho] at hti hxx
    simp only [Option.getD_none] at hxx
    refine ⟨s.nTr, s, hv, rfl, le_refl _, hxx, ?_, hp.undefined i v cur hi hc hti⟩
    intro m r hm hr
    have : m = s.nTr := by
      have := (List.getElem?_eq_some_iff.1 hr).1
      rw [h.len] at this; omega
    subst this
    rw [c2] at hr
    cases Option.some.inj hr
    exact ⟨rfl, fun _ _ => rfl⟩

theorem familyAgrees_trans {v : Label} {a b c : List Nat} (h1 : FamilyAgrees N v a b) (h2 : FamilyAgrees N v b c) : FamilyAgrees N v a c :=
  ⟨h1.1.trans h2.1, fun p hp => (h1.2 p hp).trans (h2.2 p hp)⟩

theorem familyAgrees_symm {v : Label} {a b : List Nat} (h1 : FamilyAgrees N v a b) : FamilyAgrees N v b a :=
  ⟨h1.1.symm, fun p hp => (h1.2 p hp).symm⟩

theorem familyAgrees_exitRate {v : Label} {a b : List Nat} (h1 : FamilyAgrees N v a b) : N.exitRate a v = N.exitRate b v := by
  unfold Ctbn.exitRate Ctbn.intensity
  have : N.parentStates a v = N.parentStates b v := List.map_congr_left h1.2
  rw [this, h1.1]

theorem prov_of_visits (hD : Describes net N) (hOK : N.OK) {s : SampleState} (h : Visits net tEnd maxTr draws s) :
    ProvState N net tEnd maxTr draws s := by
  induction h with
  | init =>
    refine ⟨?_, fun _ _ _ _ _ _ => .inl rfl⟩
    intro i v x cur _ _ hx
    simp only [SampleNet.initState, List.getElem?_map] at hx
    cases hv : net.vnames[i]? with
    | none => rw [hv] at hx; simp at hx
    | some v => rw [hv] at hx; simp at hx
  | @step s s' hv hs ih =>
    have h := good_of_visits hD hOK hv
    obtain ⟨cur, c1, c2, c3⟩ := h.last
    obtain ⟨times, k, t, v, e1, e2, e3, e4, e5, e6⟩ := step_spec (tEnd := tEnd) (maxTr := maxTr) (draws := draws) hD hOK c1 c3 h.timers
    rcases e6 with ⟨-, e⟩ | ⟨hst, y, y1, y2, y3, e⟩
    · rw [hs] at e; cases e
    rw [hs] at e
    simp only [Except.ok.injEq, SampleStep.next.injEq] at e
    subst e
    have hvm : v ∈ N.vars := List.mem_of_getElem? e3
    have key : ∀ (i : Nat) (w : Label), N.vars[i]? = some w →
        ((i = k ∨ v ∈ N.parents w) → ¬ FamilyAgrees N w cur.2 (cur.2.set k y)) ∧
        (¬ (i = k ∨ v ∈ N.parents w) → FamilyAgrees N w cur.2 (cur.2.set k y)) := by
      intro i w hw
      have hwm := List.mem_of_getElem? hw
      constructor
      · rintro (h1 | h1) hfa
        · subst h1
          rw [e3] at hw
          cases Option.some.inj hw
          have := hfa.1
          rw [state_set hOK c3.1 e3 y hvm, if_pos rfl] at this
          exact y2 this.symm
        · have := hfa.2 v h1
          rw [state_set hOK c3.1 e3 y hvm, if_pos rfl] at this
          exact y2 this.symm
      · intro hn
        rw [not_or] at hn
        refine ⟨?_, fun p hp => ?_⟩
        · rw [state_set hOK c3.1 e3 y hwm, if_neg]
          rintro rfl
          apply hn.1
          rw [← idxOf_of_getElem? hOK.nodup hw, ← idxOf_of_getElem? hOK.nodup e3]
        · rw [state_set hOK c3.1 e3 y (hOK.closed w hwm p hp), if_neg]
          rintro rfl
          exact hn.2 hp
    have hund := undefine_spec (k := k) (v := v) hD hOK e2
    refine ⟨?_, ?_⟩
    · intro i w x cur' hw hc' hx
      dsimp only at hc' hx
      rw [List.getLast?_append] at hc'
      simp only [List.getLast?_singleton, Option.some_or, Option.some.injEq] at hc'
      subst hc'
      have hil := (List.getElem?_eq_some_iff.1 hw).1
      have hxt := List.getElem?_eq_getElem (l := times) (i := i) (by rw [e2]; exact hil)
      rw [hund.2 i w _ hw hxt] at hx
      have hx := Option.some.inj hx
      by_cases hcase : i = k ∨ v ∈ N.parents w
      · rw [if_pos hcase] at hx; cases hx
      rw [if_neg hcase] at hx
      have hx := Option.some.inj hx
      rw [hx] at hxt
      obtain ⟨n, s₀, p1, p2, p3, p4, p5, p6⟩ := filled_of_prov hD hOK hv ih c1 e1 hw hxt
      have hfa := (key i w hw).2 hcase
      refine ⟨n, s₀, p1, p2, Nat.le_succ_of_le p3, by rw [← familyAgrees_exitRate hfa]; exact p4, ?_, ?_⟩
      · intro m r hm hr
        dsimp only at hr ⊢
        rcases Nat.lt_or_ge m s.rows.length with hml | hml
        · rw [List.getElem?_append_left hml] at hr
          exact familyAgrees_trans (p5 m r hm hr) hfa
        · rw [List.getElem?_append_right hml] at hr
          have hlt := (List.getElem?_eq_some_iff.1 hr).1
          have hz : m - s.rows.length = 0 := by simpa using hlt
          rw [hz] at hr
          simp only [List.getElem?_cons_zero, Option.some.injEq] at hr
          subst hr
          exact ⟨rfl, fun _ _ => rfl⟩
      · rcases p6 with h0 | ⟨r, r1, r2⟩
        · exact .inl h0
        · refine .inr ⟨r, ?_, fun hf => r2 (familyAgrees_trans hf (familyAgrees_symm hfa))⟩
          dsimp only
          rw [List.getElem?_append_left (List.getElem?_eq_some_iff.1 r1).1]
          exact r1
    · intro i w cur' hw hc' hx
      right
      dsimp only at hc' hx ⊢
      rw [List.getLast?_append] at hc'
      simp only [List.getLast?_singleton, Option.some_or, Option.some.injEq] at hc'
      subst hc'
      have hil := (List.getElem?_eq_some_iff.1 hw).1
      have hxt := List.getElem?_eq_getElem (l := times) (i := i) (by rw [e2]; exact hil)
      rw [hund.2 i w _ hw hxt] at hx
      have hx := Option.some.inj hx
      by_cases hcase : i = k ∨ v ∈ N.parents w
      · refine ⟨cur, ?_, (key i w hw).1 hcase⟩
        rw [Nat.add_sub_cancel, List.getElem?_append_left (by rw [h.len]; omega)]
        exact c2
      · rw [if_neg hcase] at hx; cases hx

/-- **C71.**  Whenever the next event is chosen (in every pass of the loop, whatever the draws), every pending event time was drawn
at the latest change of its variable's state or of one of its parents', with the exit intensity that the network assigns to
the variable's current state under the current states of its parents. -/
theorem event_times_use_current_cim (hD : Describes net N) (hOK : N.OK) {s : SampleState} (hv : Visits net tEnd maxTr draws s)
    {cur : ℚ × List Nat} (hc : s.rows.getLast? = some cur) :
    ∃ times, net.fillTimers cur.2 s.t (draws.exp s.nTr) s.timers = .ok times ∧ times.length = N.vars.length ∧
      ∀ (i : Nat) (v : Label) (x : ℚ), N.vars[i]? = some v → times[i]? = some x →
        DrawnForCurrent N net tEnd maxTr draws s cur.2 v i x := by
  have h := good_of_visits hD hOK hv
  obtain ⟨cur', c1, c2, c3⟩ := h.last
  rw [hc] at c1
  cases Option.some.inj c1
  obtain ⟨times, f1, f2, f3⟩ := fillTimers_spec hD hOK c3 s.t (draws.exp s.nTr) h.timers
  exact ⟨times, f1, f2, fun i v x hi hx => filled_of_prov hD hOK hv (prov_of_visits hD hOK hv) hc f1 hi hx⟩

/-- **C71.**  The event that happens is the earliest pending one; its variable moves to a state to which it has a positive intensity under
the current states of its parents; nothing else changes; and the row records the (rounded) event time. -/
theorem event_is_earliest (hD : Describes net N) (hOK : N.OK) {s s' : SampleState} (hv : Visits net tEnd maxTr draws s)
    (hs : net.step tEnd maxTr draws s = .ok (.next s')) :
    ∃ (cur : ℚ × List Nat) (times : List ℚ) (k : Nat) (v : Label) (y : Nat), s.rows.getLast? = some cur ∧
      net.fillTimers cur.2 s.t (draws.exp s.nTr) s.timers = .ok times ∧ N.vars[k]? = some v ∧ times[k]? = some s'.t ∧
      (∀ x ∈ times, s'.t ≤ x) ∧ y < N.card v ∧ y ≠ N.state cur.2 v ∧ 0 < N.intensity cur.2 v y ∧
      s'.rows = s.rows ++ [(round4 s'.t, cur.2.set k y)] := by
  have h := good_of_visits hD hOK hv
  obtain ⟨cur, c1, c2, c3⟩ := h.last
  obtain ⟨times, k, t, v, e1, e2, e3, e4, e5, e6⟩ := step_spec (tEnd := tEnd) (maxTr := maxTr) (draws := draws) hD hOK c1 c3 h.timers
  rcases e6 with ⟨-, e⟩ | ⟨hst, y, y1, y2, y3, e⟩
  · rw [hs] at e; cases e
  · rw [hs] at e
    simp only [Except.ok.injEq, SampleStep.next.injEq] at e
    subst e
    exact ⟨cur, times, k, v, y, c1, e1, e3, e4, e5, y1, y2, y3, rfl⟩

/-! ## C72 -/

/-- **C72 (refuted).**  The first event time of a variable is the standard exponential draw *times* the exit intensity `q`; for a
positive draw it is the draw divided by `q` only if `q = 1`. -/
theorem holding_time_multiplied (hD : Describes net N) (hOK : N.OK) {i : Nat} {v : Label} (hi : N.vars[i]? = some v) (draws : SampleDraws) :
    ∃ times, net.fillTimers (N.vars.map (fun _ => 0)) 0 (draws.exp 0) net.initState.timers = .ok times ∧
      ∃ x, times[i]? = some x ∧ x = N.exitRate (N.vars.map (fun _ => 0)) v * draws.exp 0 i ∧
        (0 < draws.exp 0 i → 0 < N.exitRate (N.vars.map (fun _ => 0)) v →
          (x = draws.exp 0 i / N.exitRate (N.vars.map (fun _ => 0)) v ↔ N.exitRate (N.vars.map (fun _ => 0)) v = 1)) := by
  have hg := good_init hD hOK
  obtain ⟨times, f1, f2, f3⟩ := fillTimers_spec hD hOK (zeros_inRange hOK) 0 (draws.exp 0) hg.timers
  have hil := (List.getElem?_eq_some_iff.1 hi).1
  have hnone : net.initState.timers[i]? = some none := by
    show (net.vnames.map (fun _ => none))[i]? = _
    rw [hD.vnames, List.getElem?_map, hi]; rfl
  have := f3 i v none hi hnone
  rw [Option.getD_none, zero_add] at this
  refine ⟨times, f1, _, this, rfl, ?_⟩
  intro he hq
  generalize N.exitRate (N.vars.map (fun _ => 0)) v = q at *
  generalize draws.exp 0 i = e at *
  constructor
  · intro h
    rw [eq_div_iff hq.ne'] at h
    have : q * q = 1 := by
      have h2 : (q * q) * e = 1 * e := by linarith
      exact mul_right_cancel₀ he.ne' h2
    nlinarith
  · rintro rfl; simp

/-! ## C73 -/

/-- **C73 (refuted).**  A trajectory sampled with `max_tr = m` shows only `m - 1` transitions between genuine rows (none for `m = 0` or 1):
the last sampled row is overwritten with the terminator. -/
theorem visible_transitions (hD : Describes net N) (hOK : N.OK) (m : Nat) (draws : SampleDraws) :
    ∃ (before : List (ℚ × List Nat)) (t : ℚ), before.length = m ∧ (∀ r ∈ before, N.InRange r.2) ∧
      Samples net (-1) m draws (before.map (fun r => (r.1, r.2.map (fun x : Nat => (x : ℤ)))) ++ [(t, N.vars.map (fun _ => (-1 : ℤ)))]) := by
  obtain ⟨rows, h1, h2, h3⟩ := sample_max_transitions hD hOK (-1) m draws
  obtain ⟨before, t, b1, b2, -⟩ := sample_shape hD hOK h1
  refine ⟨before, t, ?_, b2, b1 ▸ h1⟩
  have := h3 rfl
  rw [b1] at this
  simpa using this

end

/-! ## C75 -/

/-- **C75.**  `multi_trajectory`: when no worker fails or runs forever, for every order in which the workers finish, the list returned holds
one trajectory per request (in that order), each the one that the sequential sampler returns with that worker's random state. -/
theorem multi_one_per_request {net : SampleNet} {tEnds : Option (List ℚ)} {maxTrs : Option (List ℤ)} {draws : Nat → SampleDraws}
    {reqs : List (ℚ × ℤ)} (hreq : SampleNet.requests tEnds maxTrs = some reqs) {results : List RawTraj}
    (hres : List.Forall₂ (fun (r : (ℚ × ℤ) × Nat) rows => Samples net r.1.1 r.1.2 (draws r.2) rows) reqs.zipIdx results)
    {order : List Nat} (hord : order.Perm (List.range reqs.length)) :
    ∃ fuel out, net.multi tEnds maxTrs draws order fuel = .ok (some out) ∧ out.Perm results ∧
      out.map some = order.map (fun w => results[w]?) := by
  have hfuel : ∃ fuel, reqs.zipIdx.map (fun r => net.sample r.1.1 r.1.2 (draws r.2) fuel) = results.map Except.ok := by
    clear hord hreq
    generalize reqs.zipIdx = L at hres
    induction hres with
    | nil => exact ⟨0, rfl⟩
    | @cons r rows L R h _ ih =>
      obtain ⟨f, hf⟩ := h
      obtain ⟨f', hf'⟩ := ih
      refine ⟨max f f', ?_⟩
      rw [List.map_cons, List.map_cons]
      congr 1
      · exact run_fuel_mono (Nat.le_max_left f f') hf
      · rw [← hf']
        apply List.map_congr_left
        intro r hr
        have : net.sample r.1.1 r.1.2 (draws r.2) f' ∈ R.map Except.ok := by rw [← hf']; exact List.mem_map_of_mem hr
        obtain ⟨x, -, hx⟩ := List.mem_map.1 this
        rw [← hx]
        exact run_fuel_mono (Nat.le_max_right f f') hx.symm
  obtain ⟨fuel, hfuel⟩ := hfuel
  have hlen : results.length = reqs.length := by rw [← hres.length_eq]; simp
  have hbind : ∀ w ∈ order, ((results.map (Except.ok (ε := PyErr)))[w]?).bind SampleNet.appended = results[w]? := by
    intro w _
    rw [List.getElem?_map]
    cases results[w]? <;> rfl
  have hfm : order.filterMap (fun w => ((results.map (Except.ok (ε := PyErr)))[w]?).bind SampleNet.appended) = order.filterMap (fun w => results[w]?) := by
    apply List.filterMap_congr
    exact hbind
  refine ⟨fuel, order.filterMap (fun w => results[w]?), ?_, ?_, ?_⟩
  · unfold SampleNet.multi
    rw [hreq]
    simp only
    rw [hfuel, if_neg (by simp), hfm]
    rfl
  · have h1 := hord.filterMap (fun w => results[w]?)
    refine h1.trans ?_
    have : (List.range reqs.length).filterMap (fun w => results[w]?) = results := by
      rw [← hlen]
      clear * -
      induction results using List.reverseRecOn with
      | nil => rfl
      | append_singleton l a ih =>
        rw [List.length_append, List.length_singleton, List.range_succ, List.filterMap_append]
        congr 1
        · refine Eq.trans (List.filterMap_congr ?_) ih
          intro w hw
          rw [List.getElem?_append_left (List.mem_range.1 hw)]
        · simp
    rw [this]
  · have hall : ∀ w ∈ order, ∃ r, results[w]? = some r := by
      intro w hw
      have := hord.mem_iff.1 hw
      exact ⟨_, List.getElem?_eq_getElem (by rw [hlen]; exact List.mem_range.1 this)⟩
    clear * - hall
    induction order with
    | nil => rfl
    | cons w order ih =>
      obtain ⟨r, hr⟩ := hall w (by simp)
      rw [List.filterMap_cons, hr, List.map_cons, List.map_cons, hr, ih (fun w hw => hall w (by simp [hw]))]

/-- **C75.**  The requests: `t_ends` takes precedence over `max_trs`; with neither, `None` is returned and nothing is sampled. -/
theorem multi_requests (net : SampleNet) (draws : Nat → SampleDraws) (order : List Nat) (fuel : Nat) :
    (∀ ts ms, SampleNet.requests (some ts) ms = some (ts.map (fun t => (t, -1)))) ∧
    (∀ ms, SampleNet.requests none (some ms) = some (ms.map (fun m => (-1, m)))) ∧
    net.multi none none draws order fuel = .ok none := by
  refine ⟨fun ts ms => ?_, fun ms => rfl, rfl⟩
  cases ms <;> rfl

/-- **C75.**  A worker that raises leaves no trajectory and no error behind: the list returned is shorter than the list of requests. -/
theorem multi_failure_is_silent {net : SampleNet} {ts : List ℚ} {draws : Nat → SampleDraws} {w : Nat} {t : ℚ} (hw : ts[w]? = some t)
    {e : PyErr} {fuel : Nat} (hfail : net.sample t (-1) (draws w) fuel = .error e) {order : List Nat}
    (hord : order.Perm (List.range ts.length)) {out : List RawTraj} (h : net.multi (some ts) none draws order fuel = .ok (some out)) :
    out.length < ts.length := by
  unfold SampleNet.multi SampleNet.requests at h
  simp only at h
  split at h
  · cases h
  · simp only [Except.pure_eq_ok', Except.ok.injEq, Option.some.injEq] at h
    rw [← h, ← List.length_range (n := ts.length), ← hord.length_eq]
    apply lt_of_le_of_ne (List.length_filterMap_le _ _)
    intro hlen
    have hwm : w ∈ order := hord.mem_iff.2 (List.mem_range.2 (List.getElem?_eq_some_iff.1 hw).1)
    have := List.filterMap_length_eq_length.1 hlen w hwm
    rw [List.getElem?_map, List.getElem?_zipIdx, List.getElem?_map, hw] at this
    simp [hfail, SampleNet.appended] at this

/-- **C75.**  Workers forked with the same random state (numpy's generator is copied by `fork`) and given the same limit return the same
trajectory. -/
theorem multi_forked_identical {net : SampleNet} {ts : List ℚ} {d : SampleDraws} {order : List Nat} {fuel : Nat} {t : ℚ}
    (hts : ∀ x ∈ ts, x = t) {out : List RawTraj} (h : net.multi (some ts) none (fun _ => d) order fuel = .ok (some out)) :
    ∀ a ∈ out, ∀ b ∈ out, a = b := by
  unfold SampleNet.multi SampleNet.requests at h
  simp only at h
  split at h
  · cases h
  · simp only [Except.pure_eq_ok', Except.ok.injEq, Option.some.injEq] at h
    have : ∀ a ∈ out, net.sample t (-1) d fuel = .ok a := by
      intro a ha
      rw [← h] at ha
      obtain ⟨w, -, hw⟩ := List.mem_filterMap.1 ha
      rw [List.getElem?_map, List.getElem?_zipIdx, List.getElem?_map] at hw
      cases hx : ts[w]? with
      | none => rw [hx] at hw; simp at hw
      | some x =>
        rw [hx] at hw
        have hxt := hts x (List.mem_of_getElem? hx)
        subst hxt
        simp only [Option.map_some, Option.bind_some] at hw
        unfold SampleNet.appended at hw
        split at hw
        · rename_i heq; rw [heq]; exact congrArg _ (Option.some.inj hw)
        · cases hw
    intro a ha b hb
    have e1 := this a ha
    rw [this b hb] at e1
    exact (Except.ok.inj e1).symm

end PyCTBN
