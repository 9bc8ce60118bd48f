import Verif.Model.SampleStop
import Verif.Props.SampleValid

/-!
# Sampling up to an end time: C201
-/

open MeasureTheory ProbabilityTheory Filter
open scoped ENNReal Topology

namespace PyCTBN
open Spec JumpPaths

noncomputable section

/-! ## Agreement with the rational model -/

theorem stopsR_cast (tEnd : ℚ) (maxTr : ℤ) (t : ℚ) (n : Nat) : SampleNet.stopsR (tEnd : ℝ) maxTr (t : ℝ) n = SampleNet.stops tEnd maxTr t n := by
  unfold SampleNet.stopsR SampleNet.stops
  have h1 : ((tEnd : ℝ) ≠ -1) ↔ tEnd ≠ -1 := by
    rw [not_iff_not]
    constructor
    · intro h; exact_mod_cast h
    · rintro rfl; norm_num
  have h2 : ((tEnd : ℝ) ≤ t) ↔ tEnd ≤ t := by exact_mod_cast Iff.rfl
  congr 2 <;> exact decide_eq_decide.2 (by assumption)

theorem step_times {net : SampleNet} {tEnd : ℚ} {maxTr : ℤ} {d : SampleDraws} {s : SampleState} {cur : ℚ × List Nat} (hcur : s.rows.getLast? = some cur) {r : SampleStep}
    (h : net.step tEnd maxTr d s = .ok r) : ∃ times k t, net.fillTimers cur.2 s.t (d.exp s.nTr) s.timers = .ok times ∧ argmin times = .ok (k, t) ∧
      ((SampleNet.stops tEnd maxTr t s.nTr = true ∧ r = .done (SampleNet.terminate s.rows)) ∨ (SampleNet.stops tEnd maxTr t s.nTr = false ∧ ∃ s', r = .next s')) := by
  have hget : pyGet s.rows (s.rows.length - 1) = .ok cur := by
    rw [List.getLast?_eq_getElem?] at hcur
    exact pyGet_ok.2 hcur
  unfold SampleNet.step at h
  rw [hget] at h
  simp only [Except.bind_ok'] at h
  cases h1 : net.fillTimers cur.2 s.t (d.exp s.nTr) s.timers with
  | error e => rw [h1] at h; cases h
  | ok times =>
    rw [h1] at h
    simp only [Except.bind_ok'] at h
    cases h2 : argmin times with
    | error e => rw [h2] at h; cases h
    | ok kt =>
      obtain ⟨k, t⟩ := kt
      rw [h2] at h
      simp only [Except.bind_ok'] at h
      refine ⟨times, k, t, rfl, h2, ?_⟩
      cases hst : SampleNet.stops tEnd maxTr t s.nTr with
      | true =>
        rw [hst] at h
        simp only [if_true, Except.pure_eq_ok', Except.ok.injEq] at h
        exact .inl ⟨rfl, h.symm⟩
      | false =>
        rw [hst] at h
        simp only [Bool.false_eq_true, if_false] at h
        refine .inr ⟨rfl, ?_⟩
        cases h3 : pyGet net.vnames k with
        | error e => rw [h3] at h; cases h
        | ok v =>
          rw [h3] at h
          simp only [Except.bind_ok'] at h
          cases h4 : net.cimOf cur.2 v with
          | error e => rw [h4] at h; cases h
          | ok cim =>
            rw [h4] at h
            simp only [Except.bind_ok'] at h
            cases h5 : net.valueOf cur.2 v with
            | error e => rw [h5] at h; cases h
            | ok x =>
              rw [h5] at h
              simp only [Except.bind_ok'] at h
              cases h6 : pyGet cim x with
              | error e => rw [h6] at h; cases h
              | ok row =>
                rw [h6] at h
                simp only [Except.bind_ok'] at h
                cases h7 : multinomial (row.set x 0) (d.pick s.nTr) with
                | error e => rw [h7] at h; cases h
                | ok y =>
                  rw [h7] at h
                  simp only [Except.bind_ok', Except.pure_eq_ok', Except.ok.injEq] at h
                  exact ⟨_, h.symm⟩

theorem run_agrees {net : SampleNet} {N : Ctbn} (hD : Describes net N) (hOK : N.OK) (tEnd : ℚ) (maxTr : ℤ) (d : SampleDraws) (fuel : Nat) :
    ∀ {s : SampleState} {cur : ℚ × List Nat}, Visits net tEnd maxTr d s → s.rows.getLast? = some cur → cur.1 = round4 s.t →
      net.run tEnd maxTr d fuel s = (net.runR tEnd maxTr fuel s.nTr (fun j => realDraws d (s.nTr + j)) (realState s cur.2)).map
        (fun ms => SampleNet.terminate (s.rows.dropLast ++ SampleNet.rowsOfMoves s.t cur.2 ms)) := by
  induction fuel with
  | zero => intros; rfl
  | succ fuel ih =>
    intro s cur hv hcur ht
    have hg := good_of_visits hD hOK hv
    have hrows : s.rows = s.rows.dropLast ++ [cur] := by
      rw [← List.dropLast_append_getLast? cur hcur]
      simp
    have hstep : ∃ r, net.step tEnd maxTr d s = .ok r := by
      rcases step_returns hD hOK tEnd maxTr d hg with ⟨t, -, e⟩ | ⟨s', t, -, e, -⟩ <;> exact ⟨_, e⟩
    obtain ⟨r, hr⟩ := hstep
    obtain ⟨times, k, t, h1, h2, h3⟩ := step_times hcur hr
    have hf := fillTimers_cast h1
    rw [SampleNet.run, SampleNet.runR, hr]
    simp only [Except.bind_ok', Nat.add_zero]
    have e1 : net.fillTimersR (realState s cur.2).vals (realState s cur.2).t (realDraws d s.nTr).exp (realState s cur.2).timers
        = .ok (times.map (fun q : ℚ => (q : ℝ))) := hf
    rw [e1]
    simp only [Except.bind_ok', argmin_cast h2, stopsR_cast]
    rcases h3 with ⟨g1, rfl⟩ | ⟨g1, s', rfl⟩
    · rw [g1]
      simp only [if_true, Except.pure_eq_ok', Except.map]
      rw [SampleNet.rowsOfMoves, round4R_cast, ← ht, ← hrows]
    · rw [g1]
      simp only [Bool.false_eq_true, if_false]
      obtain ⟨m, p1, p2, p3, p4⟩ := pass_of_step hcur hr
      rw [p1]
      simp only [Except.bind_ok']
      rw [ih (.step hv hr) (cur := (round4 s'.t, cur.2.set m.var m.target)) (by rw [p3]; simp) rfl]
      have e2 : (fun j => realDraws d (s.nTr + (j + 1))) = (fun j => realDraws d (s'.nTr + j)) := by
        funext j; rw [p4]; congr 1; omega
      rw [e2, p4]
      cases net.runR tEnd maxTr fuel (s.nTr + 1) (fun j => realDraws d (s.nTr + 1 + j)) (realState s' (cur.2.set m.var m.target)) with
      | error e => rfl
      | ok ms =>
        simp only [Except.map, Except.bind_ok', Except.pure_eq_ok', Except.ok.injEq]
        rw [p3, List.dropLast_concat, SampleNet.rowsOfMoves, p2, show (s.t : ℝ) + ((s'.t : ℝ) - s.t) = s'.t by ring, round4R_cast, ← ht]
        nth_rw 1 [hrows]
        simp

/-- **C201** (the connection with the code's arithmetic).  On rational draws, `CTBN_Sample(t_end, max_tr)` with real clocks does in every number of passes what it does with rational
clocks. -/
theorem sampleStopR_agrees {net : SampleNet} {N : Ctbn} (hD : Describes net N) (hOK : N.OK) (tEnd : ℚ) (maxTr : ℤ) (d : SampleDraws) (fuel : Nat) :
    net.sampleStopR tEnd maxTr (realDraws d) fuel = net.sample tEnd maxTr d fuel := by
  unfold SampleNet.sample SampleNet.sampleStopR
  rw [run_agrees hD hOK tEnd maxTr d fuel (s := net.initState) (cur := (0, net.vnames.map (fun _ => 0))) .init rfl
    (by exact (by decide +kernel : (0 : ℚ) = round4 0))]
  have e1 : realState net.initState (net.vnames.map (fun _ => 0)) = net.initClock := by
    unfold realState SampleNet.initClock SampleNet.initState
    simp
  have e2 : (fun j => realDraws d (net.initState.nTr + j)) = realDraws d := by
    funext j; simp [SampleNet.initState]
  dsimp only
  rw [e1, e2]
  have e3 : ((net.initState.t : ℚ) : ℝ) = 0 := by simp [SampleNet.initState]
  rw [e3]
  rfl

/-! ## The moves before the end time -/

/-- The moves made before time `T`. -/
def movesBefore (T : ℝ) : ℝ → List Move → List Move
  | _, [] => []
  | t, m :: ms => if T ≤ t + m.hold then [] else m :: movesBefore T (t + m.hold) ms

theorem pass_times {net : SampleNet} {d : PassDraws} {s s' : ClockState} {m : Move} (h : net.passR d s = .ok (m, s')) :
    ∃ times k, net.fillTimersR s.vals s.t d.exp s.timers = .ok times ∧ argminR times = .ok (k, s'.t) ∧ s'.t = s.t + m.hold := by
  unfold SampleNet.passR at h
  cases h1 : net.fillTimersR s.vals s.t d.exp s.timers with
  | error e => rw [h1] at h; cases h
  | ok times =>
    rw [h1] at h
    simp only [Except.bind_ok'] at h
    cases h2 : argminR times with
    | error e => rw [h2] at h; cases h
    | ok kt =>
      obtain ⟨k, t⟩ := kt
      rw [h2] at h
      simp only [Except.bind_ok'] at h
      cases h3 : pyGet net.vnames k with
      | error e => rw [h3] at h; cases h
      | ok v =>
        rw [h3] at h
        simp only [Except.bind_ok'] at h
        cases h4 : net.cimOf s.vals v with
        | error e => rw [h4] at h; cases h
        | ok cim =>
          rw [h4] at h
          simp only [Except.bind_ok'] at h
          cases h5 : net.valueOf s.vals v with
          | error e => rw [h5] at h; cases h
          | ok x =>
            rw [h5] at h
            simp only [Except.bind_ok'] at h
            cases h6 : pyGet cim x with
            | error e => rw [h6] at h; cases h
            | ok row =>
              rw [h6] at h
              simp only [Except.bind_ok'] at h
              cases h7 : multinomialR (row.set x 0) d.pick with
              | error e => rw [h7] at h; cases h
              | ok y =>
                rw [h7] at h
                simp only [Except.bind_ok', Except.pure_eq_ok', Except.ok.injEq, Prod.mk.injEq] at h
                obtain ⟨rfl, rfl⟩ := h
                exact ⟨times, k, rfl, h2, by dsimp only; ring⟩

/-- If the loop has reached the end time within `n` passes, the run stops with the moves before that time. -/
theorem runR_of_moves {net : SampleNet} {T : ℝ} (hT : T ≠ -1) {n : Nat} : ∀ {d : Nat → PassDraws} {s : ClockState} {ms : List Move} (nTr : Nat), net.movesR n d s = .ok ms →
    (movesBefore T s.t ms).length < ms.length → ∀ fuel, n ≤ fuel → net.runR T (-1) fuel nTr d s = .ok (movesBefore T s.t ms) := by
  induction n with
  | zero =>
    intro d s ms nTr h hlt
    simp only [SampleNet.movesR, Except.pure_eq_ok', Except.ok.injEq] at h
    subst h
    simp at hlt
  | succ n ih =>
    intro d s ms nTr h hlt fuel hfuel
    obtain ⟨fuel, rfl⟩ : ∃ f, fuel = f + 1 := ⟨fuel - 1, by omega⟩
    rw [SampleNet.movesR] at h
    cases h1 : net.passR (d 0) s with
    | error e => rw [h1] at h; cases h
    | ok p =>
      obtain ⟨m, s'⟩ := p
      rw [h1] at h
      simp only [Except.bind_ok'] at h
      cases h2 : net.movesR n (fun j => d (j + 1)) s' with
      | error e => rw [h2] at h; cases h
      | ok ms' =>
        rw [h2] at h
        simp only [Except.bind_ok', Except.pure_eq_ok', Except.ok.injEq] at h
        subst h
        obtain ⟨times, k, g1, g2, g3⟩ := pass_times h1
        rw [SampleNet.runR, g1]
        simp only [Except.bind_ok', g2]
        rw [movesBefore] at hlt ⊢
        rw [← g3] at hlt ⊢
        by_cases hst : T ≤ s'.t
        · have : SampleNet.stopsR T (-1) s'.t nTr = true := by simp [SampleNet.stopsR, hT, hst]
          rw [this, if_pos hst]
          rfl
        · have : SampleNet.stopsR T (-1) s'.t nTr = false := by simp [SampleNet.stopsR, hst]
          rw [this, if_neg hst]
          rw [if_neg hst] at hlt
          simp only [Bool.false_eq_true, if_false, h1, Except.bind_ok']
          rw [ih (nTr + 1) h2 (by simpa using hlt) fuel (by omega)]
          rfl

/-- More passes do not change the result. -/
theorem runR_mono {net : SampleNet} {tEnd : ℝ} {maxTr : ℤ} {fuel : Nat} : ∀ {nTr : Nat} {d : Nat → PassDraws} {s : ClockState} {ms : List Move},
    net.runR tEnd maxTr fuel nTr d s = .ok ms → ∀ fuel', fuel ≤ fuel' → net.runR tEnd maxTr fuel' nTr d s = .ok ms := by
  induction fuel with
  | zero => intro nTr d s ms h; cases h
  | succ fuel ih =>
    intro nTr d s ms h fuel' hf
    obtain ⟨fuel', rfl⟩ : ∃ f, fuel' = f + 1 := ⟨fuel' - 1, by omega⟩
    rw [SampleNet.runR] at h ⊢
    cases h1 : net.fillTimersR s.vals s.t (d 0).exp s.timers with
    | error e => rw [h1] at h; cases h
    | ok times =>
      rw [h1] at h
      simp only [Except.bind_ok'] at h ⊢
      cases h2 : argminR times with
      | error e => rw [h2] at h; cases h
      | ok kt =>
        rw [h2] at h
        simp only [Except.bind_ok'] at h ⊢
        cases hst : SampleNet.stopsR tEnd maxTr kt.2 nTr with
        | true => rw [hst] at h; exact h
        | false =>
          rw [hst] at h
          simp only [Bool.false_eq_true, if_false] at h ⊢
          cases h3 : net.passR (d 0) s with
          | error e => rw [h3] at h; cases h
          | ok p =>
            rw [h3] at h
            simp only [Except.bind_ok'] at h ⊢
            cases h4 : net.runR tEnd maxTr fuel (nTr + 1) (fun j => d (j + 1)) p.2 with
            | error e => rw [h4] at h; cases h
            | ok ms' =>
              rw [h4] at h
              rw [ih h4 fuel' (by omega)]
              exact h

end

end PyCTBN
