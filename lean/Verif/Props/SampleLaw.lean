import Verif.Lemmas.SampleLaw
import Verif.Props.SampleDemo

/-!
# The probability law of sampled trajectories: C177, C178
-/

open MeasureTheory ProbabilityTheory
open scoped ENNReal

namespace PyCTBN
open Spec

/-! ## The real-valued loop makes the moves of `CTBN_Sample` -/

/-- The draws of the model with exact rationals, as draws of the model with real clocks. -/
noncomputable def realDraws (d : SampleDraws) (n : Nat) : PassDraws :=
  ⟨fun i => (d.exp n i : ℝ), fun w => match multinomial w (d.pick n) with | .ok y => y | .error _ => 0⟩

theorem argminFrom_cast (l : List ℚ) : ∀ (i : Nat) (x : ℚ) (k : Nat),
    argminFromR i (x : ℝ) k (l.map (fun q : ℚ => (q : ℝ))) = ((argminFrom i x k l).1, ((argminFrom i x k l).2 : ℝ)) := by
  induction l with
  | nil => intro i x k; rfl
  | cons y l ih =>
    intro i x k
    rw [List.map_cons, argminFromR, argminFrom]
    by_cases h : y < x
    · rw [if_pos (by exact_mod_cast h), if_pos h, ih]
    · rw [if_neg (by exact_mod_cast h), if_neg h, ih]

theorem argmin_cast {l : List ℚ} {k : Nat} {t : ℚ} (h : argmin l = .ok (k, t)) : argminR (l.map (fun q : ℚ => (q : ℝ))) = .ok (k, (t : ℝ)) := by
  cases l with
  | nil => cases h
  | cons x l =>
    simp only [argmin, Except.ok.injEq] at h
    rw [List.map_cons, argminR, argminFrom_cast, h]

theorem mapM_transfer {α α' β γ : Type} {f : α → Py β} {g : α' → Py γ} (φ : α → α') (c : β → γ) (h : ∀ a b, f a = .ok b → g (φ a) = .ok (c b)) :
    ∀ {l : List α} {bs : List β}, l.mapM f = .ok bs → (l.map φ).mapM g = .ok (bs.map c) := by
  intro l
  induction l with
  | nil =>
    intro bs hl
    simp only [List.mapM_nil, Except.pure_eq_ok', Except.ok.injEq] at hl
    subst hl; rfl
  | cons a l ih =>
    intro bs hl
    rw [List.mapM_cons] at hl
    rw [List.map_cons, List.mapM_cons]
    cases ha : f a with
    | error e => rw [ha] at hl; cases hl
    | ok b =>
      rw [ha] at hl
      simp only [Except.bind_ok'] at hl
      cases hm : l.mapM f with
      | error e => rw [hm] at hl; cases hl
      | ok bs' =>
        rw [hm] at hl
        simp only [Except.bind_ok', Except.pure_eq_ok', Except.ok.injEq] at hl
        subst hl
        rw [h a b ha, ih hm]
        rfl

theorem fillTimers_cast {net : SampleNet} {vals : List Nat} {t : ℚ} {e : Nat → ℚ} {timers : List (Option ℚ)} {times : List ℚ}
    (h : net.fillTimers vals t e timers = .ok times) :
    net.fillTimersR vals (t : ℝ) (fun i => (e i : ℝ)) (timers.map (Option.map (fun q : ℚ => (q : ℝ)))) = .ok (times.map (fun q : ℚ => (q : ℝ))) := by
  unfold SampleNet.fillTimers at h
  unfold SampleNet.fillTimersR
  rw [List.zipIdx_map]
  refine mapM_transfer _ _ ?_ h
  rintro ⟨o, i⟩ b hb
  cases o with
  | some x =>
    simp only [Except.ok.injEq] at hb
    subst hb; rfl
  | none =>
    dsimp only at hb
    simp only [Prod.map, Option.map_none, id]
    cases hv : pyGet net.vnames i with
    | error er => rw [hv] at hb; cases hb
    | ok v =>
      rw [hv] at hb
      simp only [Except.bind_ok'] at hb ⊢
      cases hq : net.scaleOf vals v with
      | error er => rw [hq] at hb; cases hb
      | ok q =>
        rw [hq] at hb
        simp only [Except.bind_ok', Except.pure_eq_ok', Except.ok.injEq] at hb ⊢
        subst hb; simp

theorem undefine_cast (net : SampleNet) (k : Nat) (v : Label) (times : List ℚ) :
    net.undefineR k v (times.map (fun q : ℚ => (q : ℝ))) = (net.undefine k v times).map (Option.map (fun q : ℚ => (q : ℝ))) := by
  unfold SampleNet.undefineR SampleNet.undefine
  rw [List.zipIdx_map, List.map_map, List.map_map]
  refine List.map_congr_left (fun p _ => ?_)
  simp only [Function.comp, Prod.map, id]
  split_ifs <;> rfl

/-- A state of the loop with its current row. -/
noncomputable def realState (s : SampleState) (cur : List Nat) : ClockState := ⟨cur, s.timers.map (Option.map (fun q : ℚ => (q : ℝ))), (s.t : ℝ)⟩

/-- A pass of `CTBN_Sample` that does not stop is a pass of the loop with real clocks. -/
theorem pass_of_step {net : SampleNet} {tEnd : ℚ} {maxTr : ℤ} {d : SampleDraws} {s s' : SampleState} {cur : ℚ × List Nat}
    (hcur : s.rows.getLast? = some cur) (h : net.step tEnd maxTr d s = .ok (.next s')) :
    ∃ m : Move, net.passR (realDraws d s.nTr) (realState s cur.2) = .ok (m, realState s' (cur.2.set m.var m.target)) ∧
      m.hold = (s'.t : ℝ) - s.t ∧ s'.rows = s.rows ++ [(round4 s'.t, cur.2.set m.var m.target)] ∧ s'.nTr = s.nTr + 1 := by
  have hget : pyGet s.rows (s.rows.length - 1) = .ok cur := by
    rw [List.getLast?_eq_getElem?] at hcur
    exact pyGet_ok.2 hcur
  unfold SampleNet.step at h
  rw [hget] at h
  simp only [Except.bind_ok'] at h
  cases h1 : net.fillTimers cur.2 s.t (d.exp s.nTr) s.timers with
  | error e => rw [h1] at h; cases h
  | ok times =>
    rw [h1] at h
    simp only [Except.bind_ok'] at h
    cases h2 : argmin times with
    | error e => rw [h2] at h; cases h
    | ok kt =>
      obtain ⟨k, t⟩ := kt
      rw [h2] at h
      simp only [Except.bind_ok'] at h
      split_ifs at h with hst
      · cases h
      · cases h3 : pyGet net.vnames k with
        | error e => rw [h3] at h; cases h
        | ok v =>
          rw [h3] at h
          simp only [Except.bind_ok'] at h
          cases h4 : net.cimOf cur.2 v with
          | error e => rw [h4] at h; cases h
          | ok cim =>
            rw [h4] at h
            simp only [Except.bind_ok'] at h
            cases h5 : net.valueOf cur.2 v with
            | error e => rw [h5] at h; cases h
            | ok x =>
              rw [h5] at h
              simp only [Except.bind_ok'] at h
              cases h6 : pyGet cim x with
              | error e => rw [h6] at h; cases h
              | ok row =>
                rw [h6] at h
                simp only [Except.bind_ok'] at h
                cases h7 : multinomial (row.set x 0) (d.pick s.nTr) with
                | error e => rw [h7] at h; cases h
                | ok y =>
                  rw [h7] at h
                  simp only [Except.bind_ok', Except.pure_eq_ok', Except.ok.injEq, SampleStep.next.injEq] at h
                  subst h
                  have hm : multinomialR (row.set x 0) (realDraws d s.nTr).pick = .ok y := by
                    have hp : (realDraws d s.nTr).pick (row.set x 0) = y := by simp only [realDraws, h7]
                    unfold multinomial at h7
                    unfold multinomialR
                    dsimp only at h7
                    split_ifs at h7 ⊢ with g1 g2
                    rw [hp]
                  refine ⟨⟨k, y, (t : ℝ) - s.t⟩, ?_, rfl, rfl, rfl⟩
                  unfold SampleNet.passR realState
                  dsimp only
                  have hf := fillTimers_cast h1
                  rw [show (realDraws d s.nTr).exp = (fun i => (d.exp s.nTr i : ℝ)) from rfl, hf]
                  simp only [Except.bind_ok', argmin_cast h2, h3, h4, h5, h6, hm, undefine_cast, Except.pure_eq_ok']

/-- The times and joint states after each of a list of moves. -/
noncomputable def Spec.movesFrames : ℝ → List Nat → List Move → List (ℝ × List Nat)
  | t, vals, [] => [(t, vals)]
  | t, vals, m :: ms => (t, vals) :: movesFrames (t + m.hold) (vals.set m.var m.target) ms

theorem movesFrames_snoc (ms : List Move) : ∀ (t : ℝ) (vals : List Nat) (m : Move) (τ : ℝ) (cur : List Nat),
    (movesFrames t vals ms).getLast? = some (τ, cur) →
    movesFrames t vals (ms ++ [m]) = movesFrames t vals ms ++ [(τ + m.hold, cur.set m.var m.target)] := by
  induction ms with
  | nil =>
    intro t vals m τ cur h
    simp only [movesFrames, List.getLast?_singleton, Option.some.injEq, Prod.mk.injEq] at h
    obtain ⟨rfl, rfl⟩ := h
    rfl
  | cons a ms ih =>
    intro t vals m τ cur h
    rw [List.cons_append, movesFrames, movesFrames, ih _ _ m τ cur, List.cons_append]
    rw [movesFrames] at h
    have hne : movesFrames (t + a.hold) (vals.set a.var a.target) ms ≠ [] := by cases ms <;> simp [movesFrames]
    obtain ⟨b, l, hbl⟩ := List.exists_cons_of_ne_nil hne
    rw [hbl, List.getLast?_cons_cons] at h
    rw [hbl]; exact h

/-- The rows of a frame are those of a list of moves: the states after each move, and the times rounded. -/
def Spec.FramesMatch (rows : List (ℚ × List Nat)) (fs : List (ℝ × List Nat)) : Prop :=
  List.Forall₂ (fun (r : ℚ × List Nat) (f : ℝ × List Nat) => r.2 = f.2 ∧ ∃ τ : ℚ, (τ : ℝ) = f.1 ∧ r.1 = round4 τ) rows fs

theorem visits_moves {net : SampleNet} {tEnd : ℚ} {maxTr : ℤ} {d : SampleDraws} {s : SampleState} (h : Visits net tEnd maxTr d s) :
    ∃ (ms : List Move) (cur : ℚ × List Nat), ms.length = s.nTr ∧ s.rows.getLast? = some cur ∧
      (movesFrames 0 (net.vnames.map (fun _ => 0)) ms).getLast? = some ((s.t : ℝ), cur.2) ∧
      FramesMatch s.rows (movesFrames 0 (net.vnames.map (fun _ => 0)) ms) ∧
      ∀ n rest, net.movesR n (fun j => realDraws d (s.nTr + j)) (realState s cur.2) = .ok rest →
        net.movesR (s.nTr + n) (realDraws d) net.initClock = .ok (ms ++ rest) := by
  induction h with
  | init =>
    refine ⟨[], (0, net.vnames.map (fun _ => 0)), rfl, rfl, ?_, ?_, ?_⟩
    · simp [movesFrames, SampleNet.initState]
    · refine .cons ⟨rfl, 0, by simp, ?_⟩ .nil
      exact (by decide +kernel : (0 : ℚ) = round4 0)
    · intro n rest hrest
      have e1 : realState net.initState (net.vnames.map (fun _ => 0)) = net.initClock := by
        unfold realState SampleNet.initClock SampleNet.initState
        simp [List.map_map, Function.comp_def]
      have e2 : (fun j => realDraws d (net.initState.nTr + j)) = realDraws d := by
        funext j; simp [SampleNet.initState]
      rw [e1, e2] at hrest
      simpa [SampleNet.initState] using hrest
  | @step s s' hv hs ih =>
    obtain ⟨ms, cur, h1, h2, h3, h4, h5⟩ := ih
    obtain ⟨m, p1, p2, p3, p4⟩ := pass_of_step h2 hs
    have hfr := movesFrames_snoc ms 0 (net.vnames.map (fun _ => 0)) m _ _ h3
    rw [p2, show (s.t : ℝ) + ((s'.t : ℝ) - s.t) = s'.t by ring] at hfr
    refine ⟨ms ++ [m], (round4 s'.t, cur.2.set m.var m.target), by simp [h1, p4], by rw [p3]; simp, by rw [hfr]; simp, ?_, ?_⟩
    · rw [hfr, p3]
      refine List.rel_append h4 (.cons ⟨rfl, s'.t, rfl, rfl⟩ .nil)
    · intro n rest hrest
      have := h5 (n + 1) (m :: rest) (by
        rw [SampleNet.movesR]
        rw [Nat.add_zero, p1]
        simp only [Except.bind_ok']
        rw [show (fun j => realDraws d (s.nTr + (j + 1))) = (fun j => realDraws d (s'.nTr + j)) by
          funext j; rw [p4]; congr 1; omega]
        rw [hrest]; rfl)
      rw [show s'.nTr + n = s.nTr + (n + 1) by omega, this]
      simp

/-- **C177** (the connection).  The rows `CTBN_Sample` returns are those of the moves of the loop with real clocks, on the same draws: the joint
states after each move, at the times of the moves, rounded; the states of the last row are overwritten with -1. -/
theorem sample_rows_of_moves {net : SampleNet} {N : Ctbn} (hD : Describes net N) (hOK : N.OK) {tEnd : ℚ} {maxTr : ℤ} {d : SampleDraws} {rows : RawTraj}
    (h : Samples net tEnd maxTr d rows) :
    ∃ (ms : List Move) (rows₀ : List (ℚ × List Nat)), net.movesR ms.length (realDraws d) net.initClock = .ok ms ∧
      FramesMatch rows₀ (movesFrames 0 (N.vars.map (fun _ => 0)) ms) ∧ rows = SampleNet.terminate rows₀ := by
  obtain ⟨s, hv, hs⟩ := samples_visits h
  obtain ⟨ms, cur, h1, h2, h3, h4, h5⟩ := visits_moves hv
  refine ⟨ms, s.rows, ?_, by rw [← hD.vnames]; exact h4, done_rows hD hOK hv hs⟩
  have := h5 0 [] rfl
  rw [h1]
  simpa using this

/-! ## The law -/

section
variable {net : SampleNet} {N : Ctbn} {U : Type} [MeasurableSpace U] {P : Measure U} [IsProbabilityMeasure P] (C : Categorical U P)

/-- **C177.** With independent standard exponential draws and multinomial choices, the moves of `CTBN_Sample` are those of a Markov jump process whose
rate of moving a variable is the inverse of its exit intensity, the target being chosen by the intensities. -/
theorem sample_moves_law (hD : Describes net N) (hOK : N.OK) (hpos : N.Leaves) {L : List MoveEvent} (hL : Proper N L) :
    drawLaw N.vars.length P {ω | MovesAre (net.movesR L.length (drawsAt C ω) net.initClock) L}
      = ENNReal.ofReal (jumpLaw N N.inverseRates L (N.vars.map (fun _ => 0))) := by
  have hr := zeros_inRange hOK
  have h := lintegral_moveProb hD hOK C hpos hL hr (fun _ => False)
  have hprob : ∀ w, IsProbabilityMeasure (expMeasure (1 / (N.exitRate (N.vars.map (fun _ => 0)) (vr N w) : ℝ))) :=
    fun w => isProbabilityMeasure_expMeasure (one_div_pos.2 (by exact_mod_cast hpos _ hr _ (List.getElem_mem _)))
  rw [← h]
  have hc : ∀ r, moveProb net N C L (N.vars.map (fun _ => 0)) (fun _ => False) r
      = drawLaw N.vars.length P {ω | MovesAre (net.movesR L.length (drawsAt C ω) net.initClock) L} := by
    intro r
    have : clockAt N (N.vars.map (fun _ => 0)) (fun _ => False) r 0 = net.initClock := by
      unfold clockAt SampleNet.initClock
      rw [hD.vnames]
      congr 1
      apply List.ext_getElem (by simp)
      intro i h1 h2
      simp
    unfold moveProb moveSet
    simp only [Set.mem_setOf_eq, this]
  simp only [hc, lintegral_const, measure_univ, mul_one]

end

/-! ## When it is the law of the network -/

section
variable {net : SampleNet} {N : Ctbn} (hD : Describes net N) (hOK : N.OK)
include hD hOK

theorem rates_nonneg {vals : List Nat} (hr : N.InRange vals) {v : Label} (hv : v ∈ N.vars) {y : Nat} (hy : y < N.card v) : 0 ≤ N.rates vals v y := by
  rw [← weights_at vals hy]
  cases hw : (N.weights vals v)[y]? with
  | none => simp
  | some x => exact_mod_cast weights_nonneg hD hOK hr hv x (List.mem_of_getElem? hw)

theorem outRate_pos {vals : List Nat} (hr : N.InRange vals) {v : Label} (hv : v ∈ N.vars) : 0 < N.outRate vals v := by
  rw [← weights_sum]; exact_mod_cast weights_pos hD hOK hr hv

theorem exists_rate_pos {vals : List Nat} (hr : N.InRange vals) {v : Label} (hv : v ∈ N.vars) : ∃ y < N.card v, 0 < N.rates vals v y := by
  obtain ⟨j, hj, hji, hjp⟩ := (matrixOK hD hOK hr hv).leaves _ (hr.2 v hv)
  refine ⟨j, hj, ?_⟩
  unfold Ctbn.rates
  rw [if_neg hji]
  exact_mod_cast hjp

theorem leaves_of_conservative (hc : N.Conservative) : N.Leaves := by
  intro vals hr v hv
  have h := outRate_pos hD hOK hr hv
  rw [← hc vals hr v hv] at h
  exact_mod_cast h

theorem totalRate_rates_pos {vals : List Nat} (hr : N.InRange vals) : 0 < totalRate N N.rates vals := by
  unfold totalRate
  refine List.sum_pos _ ?_ (by simpa using hOK.nonempty)
  intro x hx
  obtain ⟨v, hv, rfl⟩ := List.mem_map.1 hx
  exact outRate_pos hD hOK hr hv

theorem jumpLaw_nonneg (hc : N.Conservative) {L : List MoveEvent} (hL : Proper N L) : ∀ {vals : List Nat}, N.InRange vals →
    0 ≤ jumpLaw N N.rates L vals ∧ 0 ≤ jumpLaw N N.inverseRates L vals := by
  induction L with
  | nil => intro vals _; simp [jumpLaw]
  | cons c L ih =>
    intro vals hr
    obtain ⟨k, y, a⟩ := c
    obtain ⟨v, hv, hy, ha⟩ := hL _ List.mem_cons_self
    dsimp only at hv hy ha
    have hvm := List.mem_of_getElem? hv
    have hg : N.vars.getD k "" = v := by simp [List.getD_eq_getElem?_getD, hv]
    obtain ⟨i1, i2⟩ := ih (fun c hc => hL c (List.mem_cons_of_mem _ hc)) (inRange_set hOK hr hv hy)
    have hrn := rates_nonneg hD hOK hr hvm hy
    have hon := outRate_pos hD hOK hr hvm
    have hq : ∀ w ∈ N.vars, (0 : ℝ) < N.exitRate vals w := fun w hw => by exact_mod_cast leaves_of_conservative hD hOK hc vals hr w hw
    have ht := totalRate_rates_pos hD hOK hr
    have ht' : 0 ≤ totalRate N N.inverseRates vals := by
      rw [totalRate_inverse hD hOK hr]
      exact Finset.sum_nonneg (fun w _ => (one_div_pos.2 (hq _ (List.getElem_mem _))).le)
    have := hq v hvm
    simp only [jumpLaw, hg, Ctbn.inverseRates]
    constructor
    · positivity
    · positivity

omit hD hOK in
theorem jumpLaw_append (rate : Rates) (L M : List MoveEvent) : ∀ vals, jumpLaw N rate (L ++ M) vals
    = jumpLaw N rate L vals * jumpLaw N rate M (L.foldl (fun v c => v.set c.1 c.2.1) vals) := by
  induction L with
  | nil => intro vals; simp [jumpLaw]
  | cons c L ih =>
    intro vals
    obtain ⟨k, y, a⟩ := c
    simp only [List.cons_append, jumpLaw, List.foldl_cons, ih]
    ring

theorem reaches_path {vals : List Nat} (h : N.Reaches vals) : N.InRange vals ∧ ∃ L, Proper N L ∧
    L.foldl (fun v c => v.set c.1 c.2.1) (N.vars.map (fun _ => 0)) = vals ∧ 0 < jumpLaw N N.rates L (N.vars.map (fun _ => 0)) := by
  induction h with
  | start => exact ⟨zeros_inRange hOK, [], by simp [Proper], rfl, by simp [jumpLaw]⟩
  | @move vals k y v _ hk hy hp ih =>
    obtain ⟨hr, L, h1, h2, h3⟩ := ih
    refine ⟨inRange_set hOK hr hk hy, L ++ [(k, y, 0)], ?_, by rw [List.foldl_append, h2]; rfl, ?_⟩
    · intro c hc
      rcases List.mem_append.1 hc with hc | hc
      · exact h1 c hc
      · rw [List.mem_singleton] at hc
        subst hc
        exact ⟨v, hk, hy, le_refl _⟩
    · rw [jumpLaw_append, h2]
      have ht := totalRate_rates_pos hD hOK hr
      have hg : N.vars.getD k "" = v := by simp [List.getD_eq_getElem?_getD, hk]
      simp only [jumpLaw, hg, mul_one]
      positivity

/-- Two processes with the same probabilities of all finite sequences of moves have the same rates in the states that can be reached. -/
theorem rates_of_laws (hc : N.Conservative)
    (h : ∀ L, Proper N L → jumpLaw N N.inverseRates L (N.vars.map (fun _ => 0)) = jumpLaw N N.rates L (N.vars.map (fun _ => 0)))
    {vals : List Nat} (hv : N.Reaches vals) {v : Label} (hvm : v ∈ N.vars) : N.exitRate vals v = 1 := by
  obtain ⟨hr, L, h1, h2, h3⟩ := reaches_path hD hOK hv
  have hq : ∀ w ∈ N.vars, (0 : ℝ) < N.exitRate vals w := fun w hw => by exact_mod_cast leaves_of_conservative hD hOK hc vals hr w hw
  have ht := totalRate_rates_pos hD hOK hr
  have ht' : 0 < totalRate N N.inverseRates vals := by
    rw [totalRate_inverse hD hOK hr]
    have hne : Nonempty (Fin N.vars.length) := ⟨⟨0, List.length_pos_iff.2 hOK.nonempty⟩⟩
    exact Finset.sum_pos (fun w _ => one_div_pos.2 (hq _ (List.getElem_mem _))) Finset.univ_nonempty
  obtain ⟨k, hk⟩ := List.mem_iff_getElem?.1 hvm
  have hg : N.vars.getD k "" = v := by simp [List.getD_eq_getElem?_getD, hk]
  obtain ⟨y, hy, hp⟩ := exists_rate_pos hD hOK hr hvm
  have key : ∀ a : ℝ, 0 ≤ a → N.inverseRates vals v y / totalRate N N.inverseRates vals * Real.exp (-(totalRate N N.inverseRates vals * a))
      = N.rates vals v y / totalRate N N.rates vals * Real.exp (-(totalRate N N.rates vals * a)) := by
    intro a ha
    have hP : Proper N (L ++ [(k, y, a)]) := by
      intro c hc
      rcases List.mem_append.1 hc with hc | hc
      · exact h1 c hc
      · rw [List.mem_singleton] at hc
        subst hc
        exact ⟨v, hk, hy, ha⟩
    have e := h _ hP
    rw [jumpLaw_append, jumpLaw_append, h2, h L h1] at e
    have := mul_left_cancel₀ h3.ne' e
    simpa only [jumpLaw, hg, mul_one] using this
  have k0 := key 0 (le_refl _)
  simp only [mul_zero, neg_zero, Real.exp_zero, mul_one] at k0
  have k1 := key 1 zero_le_one
  rw [k0] at k1
  have hpos : N.rates vals v y / totalRate N N.rates vals ≠ 0 := (div_pos hp ht).ne'
  have k2 := Real.exp_injective (mul_left_cancel₀ hpos k1)
  have hR : totalRate N N.inverseRates vals = totalRate N N.rates vals := by linarith
  rw [hR] at k0
  have k3 : N.inverseRates vals v y = N.rates vals v y := by
    have := congrArg (fun z => z * totalRate N N.rates vals) k0
    simpa [div_mul_cancel₀ _ ht.ne'] using this
  unfold Ctbn.inverseRates at k3
  rw [← hc vals hr v hvm] at k3
  have hqv := hq v hvm
  have k4 : (N.exitRate vals v : ℝ) * N.exitRate vals v = 1 := by
    field_simp at k3
    nlinarith [k3]
  have k5 : (N.exitRate vals v : ℝ) = 1 := by nlinarith
  exact_mod_cast k5

theorem laws_of_rates (hc : N.Conservative) (h : ∀ vals, N.Reaches vals → ∀ v ∈ N.vars, N.exitRate vals v = 1) {L : List MoveEvent} (hL : Proper N L) :
    ∀ {vals : List Nat}, N.Reaches vals → jumpLaw N N.inverseRates L vals = jumpLaw N N.rates L vals := by
  induction L with
  | nil => intro vals _; rfl
  | cons c L ih =>
    intro vals hR
    obtain ⟨k, y, a⟩ := c
    obtain ⟨v, hv, hy, ha⟩ := hL _ List.mem_cons_self
    dsimp only at hv hy ha
    have hvm := List.mem_of_getElem? hv
    obtain ⟨hr, -⟩ := reaches_path hD hOK hR
    have heq : ∀ w ∈ N.vars, ∀ y, N.inverseRates vals w y = N.rates vals w y := by
      intro w hw y
      unfold Ctbn.inverseRates
      rw [← hc vals hr w hw, h vals hR w hw]
      simp
    have ht : totalRate N N.inverseRates vals = totalRate N N.rates vals := by
      unfold totalRate
      congr 1
      refine List.map_congr_left (fun w hw => ?_)
      congr 1
      exact List.map_congr_left (fun y _ => heq w hw y)
    have hg : N.vars.getD k "" = v := by simp [List.getD_eq_getElem?_getD, hv]
    simp only [jumpLaw, hg, ht, heq v hvm]
    rcases (rates_nonneg hD hOK hr hvm hy).lt_or_eq with hp | hz
    · rw [ih (fun c hc => hL c (List.mem_cons_of_mem _ hc)) (.move hR hv hy hp)]
    · rw [← hz]; simp

/-- **C178.** The sampled trajectories follow the law of the network exactly when every variable leaves its state with intensity 1 in every joint state
that can be reached. -/
theorem sample_law_iff {U : Type} [MeasurableSpace U] {P : Measure U} [IsProbabilityMeasure P] (C : Categorical U P) (hc : N.Conservative) :
    (∀ L, Proper N L → drawLaw N.vars.length P {ω | MovesAre (net.movesR L.length (drawsAt C ω) net.initClock) L}
        = ENNReal.ofReal (jumpLaw N N.rates L (N.vars.map (fun _ => 0)))) ↔
      ∀ vals, N.Reaches vals → ∀ v ∈ N.vars, N.exitRate vals v = 1 := by
  have hpos := leaves_of_conservative hD hOK hc
  have hz := zeros_inRange hOK
  constructor
  · intro h vals hR v hv
    refine rates_of_laws hD hOK hc (fun L hL => ?_) hR hv
    have := h L hL
    rw [sample_moves_law C hD hOK hpos hL] at this
    obtain ⟨n1, n2⟩ := jumpLaw_nonneg hD hOK hc hL hz
    exact (ENNReal.ofReal_eq_ofReal_iff n2 n1).1 this
  · intro h L hL
    rw [sample_moves_law C hD hOK hpos hL, laws_of_rates hD hOK hc h hL .start]

end

/-! ## Non-vacuity -/

/-- The law of one multinomial choice. -/
noncomputable def choiceLaw (w : List ℚ) : Measure ℕ :=
  if (∀ x ∈ w, 0 ≤ x) ∧ 0 < w.sum then ∑ i ∈ Finset.range w.length, ENNReal.ofReal (((w[i]?).getD 0 / w.sum : ℚ) : ℝ) • Measure.dirac i else Measure.dirac 0

theorem choiceLaw_singleton {w : List ℚ} (h1 : ∀ x ∈ w, 0 ≤ x) (h2 : 0 < w.sum) (y : ℕ) :
    choiceLaw w {y} = ENNReal.ofReal (((w[y]?).getD 0 / w.sum : ℚ) : ℝ) := by
  unfold choiceLaw
  rw [if_pos ⟨h1, h2⟩, Measure.finsetSum_apply]
  simp only [Measure.smul_apply, smul_eq_mul]
  rcases Nat.lt_or_ge y w.length with hy | hy
  · rw [Finset.sum_eq_single y]
    · simp
    · intro b _ hb
      rw [Measure.dirac_apply' _ (measurableSet_singleton _)]
      simp [hb]
    · intro h; exact absurd (Finset.mem_range.2 hy) h
  · rw [Finset.sum_eq_zero, List.getElem?_eq_none hy]
    · simp
    · intro b hb
      have : b ≠ y := by have := Finset.mem_range.1 hb; omega
      rw [Measure.dirac_apply' _ (measurableSet_singleton _)]
      simp [this]

instance choiceLaw_prob (w : List ℚ) : IsProbabilityMeasure (choiceLaw w) := by
  constructor
  unfold choiceLaw
  split_ifs with h
  · rw [Measure.finsetSum_apply]
    simp only [Measure.smul_apply, smul_eq_mul, measure_univ, mul_one]
    rw [← ENNReal.ofReal_sum_of_nonneg]
    · have : ∑ i ∈ Finset.range w.length, ((((w[i]?).getD 0 / w.sum : ℚ)) : ℝ) = 1 := by
        have e : ∑ i ∈ Finset.range w.length, ((w[i]?).getD 0 / w.sum) = 1 := by
          rw [← Finset.sum_div, Finset.sum_range]
          have : ∑ i : Fin w.length, (w[i.val]?).getD 0 = w.sum := by
            simp [← Fin.sum_univ_getElem]
          rw [this, div_self h.2.ne']
        exact_mod_cast e
      rw [this, ENNReal.ofReal_one]
    · intro i _
      have : 0 ≤ (w[i]?).getD 0 := by
        cases hw : w[i]? with
        | none => simp
        | some x => exact h.1 x (List.mem_of_getElem? hw)
      exact_mod_cast div_nonneg this h.2.le
  · exact measure_univ

/-- A source of multinomial choices exists: independent choices, one for every list of weights. -/
noncomputable def someCategorical : Categorical (List ℚ → ℕ) (Measure.infinitePi choiceLaw) where
  pick w u := u w
  meas w y := by
    have h : Measurable (fun u : List ℚ → ℕ => u w) := measurable_pi_apply w
    exact h (measurableSet_singleton y)
  law w h1 h2 y := by
    have hm : Measurable (fun u : List ℚ → ℕ => u w) := measurable_pi_apply w
    have h : (Measure.infinitePi choiceLaw).map (fun u : List ℚ → ℕ => u w) = choiceLaw w := Measure.infinitePi_map_eval choiceLaw w
    have e : {u : List ℚ → ℕ | u w = y} = (fun u : List ℚ → ℕ => u w) ⁻¹' {y} := rfl
    rw [e, ← Measure.map_apply hm (measurableSet_singleton y), h, choiceLaw_singleton h1 h2]

namespace Demo

theorem demo_inRange {vals : List Nat} (hr : ctbn.InRange vals) : ∃ x < 3, ∃ y < 2, vals = [x, y] := by
  obtain ⟨h1, h2⟩ := hr
  obtain ⟨x, y, rfl⟩ : ∃ x y, vals = [x, y] := by
    match vals, h1 with
    | [x, y], _ => exact ⟨x, y, rfl⟩
  exact ⟨x, h2 "X" (by decide), y, h2 "Y" (by decide), rfl⟩

theorem conservative : ctbn.Conservative := by
  intro vals hr v hv
  obtain ⟨x, hx, y, hy, rfl⟩ := demo_inRange hr
  rw [← weights_sum]
  have hall : ∀ x < 3, ∀ y < 2, ∀ v ∈ ["X", "Y"], ctbn.exitRate [x, y] v = (ctbn.weights [x, y] v).sum := by decide +kernel
  rw [hall x hx y hy v hv]

/-- C177: the probability that `X` moves first, to state 1, after more than 1: the rates used are 1/2 for `X` and 1 for `Y`. -/
example : drawLaw 2 (Measure.infinitePi choiceLaw) {ω | MovesAre (net.movesR 1 (drawsAt someCategorical ω) net.initClock) [(0, 1, 1)]}
    = ENNReal.ofReal (1 / 6 * Real.exp (-(3 / 2))) := by
  have h := sample_moves_law someCategorical describes ok (leaves_of_conservative describes ok conservative) (L := [(0, 1, 1)]) (by
    intro c hc
    rw [List.mem_singleton] at hc
    subst hc
    exact ⟨"X", rfl, by decide, by norm_num⟩)
  refine h.trans ?_
  congr 1
  have hz : ctbn.vars.map (fun _ => 0) = [0, 0] := rfl
  have ht : totalRate ctbn ctbn.inverseRates [0, 0] = 3 / 2 := by
    rw [totalRate_inverse describes ok (vals := [0, 0]) (zeros_inRange ok)]
    show ∑ i : Fin 2, _ = _
    rw [Fin.sum_univ_two]
    have e1 : ctbn.exitRate [0, 0] (vr ctbn (0 : Fin 2)) = 2 := by decide +kernel
    have e2 : ctbn.exitRate [0, 0] (vr ctbn (1 : Fin 2)) = 1 := by decide +kernel
    rw [e1, e2]; norm_num
  have hr : ctbn.inverseRates [0, 0] "X" 1 = 1 / 4 := by
    unfold Ctbn.inverseRates
    rw [← weights_sum, ← weights_at [0, 0] (show 1 < ctbn.card "X" by decide)]
    have e1 : ctbn.exitRate [0, 0] "X" = 2 := by decide +kernel
    have e2 : (ctbn.weights [0, 0] "X").sum = 2 := by decide +kernel
    have e3 : ((ctbn.weights [0, 0] "X")[1]?).getD 0 = 1 := by decide +kernel
    rw [e1, e2, e3]; norm_num
  simp only [hz, jumpLaw]
  rw [ht, show ctbn.vars.getD 0 "" = "X" from rfl, hr]
  norm_num

/-- C178: the trajectories sampled from this network do not follow its law. -/
example : ¬ ∀ L, Proper ctbn L → drawLaw 2 (Measure.infinitePi choiceLaw) {ω | MovesAre (net.movesR L.length (drawsAt someCategorical ω) net.initClock) L}
    = ENNReal.ofReal (jumpLaw ctbn ctbn.rates L [0, 0]) := by
  intro h
  have := (sample_law_iff describes ok someCategorical conservative).1 h [0, 0] .start "X" (by decide)
  exact absurd this (by decide +kernel)

/-- A single variable with three states and exit intensity 1. -/
def unitCim : List (List ℚ) := [[-1, 1/2, 1/2], [1, -1, 0], [0, 1, -1]]

def unitCtbn : Ctbn where
  vars := ["X"]
  card := fun _ => 3
  parents := fun _ => []
  cim := fun _ _ => unitCim

def sUnit : SetOfCims := ⟨"X", [], 3, [[]], false, [mkCim unitCim]⟩

def unitNet : SampleNet := SampleNet.new ["X"] [] [("X", sUnit)]

theorem unit_describes : Describes unitNet unitCtbn where
  vnames := rfl
  parents := by decide
  cims := by
    intro v hv
    simp only [unitCtbn, List.mem_cons, List.not_mem_nil, or_false] at hv
    subst hv
    refine ⟨sUnit, rfl, rfl, by decide, ?_, ?_, ?_⟩
    · intro u
      simp only [sUnit, List.mem_singleton, InRangeAssign]
      constructor
      · rintro rfl; exact .nil
      · intro h; cases h; rfl
    · intro k u m h1 h2
      have hk : k < 1 := by have := (List.getElem?_eq_some_iff.1 h2).1; simpa [sUnit] using this
      have : k = 0 := by omega
      subst this
      simp only [sUnit, List.getElem?_cons_zero, Option.some.injEq] at h2
      rw [← h2]; rfl
    · intro h; simp [unitCtbn, Ctbn.parentCards] at h

theorem unit_ok : unitCtbn.OK where
  nonempty := by simp [unitCtbn]
  nodup := by decide
  closed := by decide
  pos := by decide
  cims := fun _ _ _ _ => (matrixOK_of (by decide +kernel) : Ctbn.MatrixOK 3 unitCim)

theorem unit_rates {vals : List Nat} (hr : unitCtbn.InRange vals) {v : Label} (hv : v ∈ unitCtbn.vars) :
    unitCtbn.exitRate vals v = 1 ∧ unitCtbn.exitRate vals v = (unitCtbn.weights vals v).sum := by
  obtain ⟨h1, h2⟩ := hr
  obtain ⟨x, rfl⟩ : ∃ x, vals = [x] := by
    match vals, h1 with
    | [x], _ => exact ⟨x, rfl⟩
  have hx : x < 3 := h2 "X" (by decide)
  have hall : ∀ x < 3, ∀ v ∈ ["X"], unitCtbn.exitRate [x] v = 1 ∧ unitCtbn.exitRate [x] v = (unitCtbn.weights [x] v).sum := by decide +kernel
  exact hall x hx v hv

/-- C178: with unit exit intensities the trajectories follow the law of the network. -/
example (L : List MoveEvent) (hL : Proper unitCtbn L) :
    drawLaw 1 (Measure.infinitePi choiceLaw) {ω | MovesAre (unitNet.movesR L.length (drawsAt someCategorical ω) unitNet.initClock) L}
      = ENNReal.ofReal (jumpLaw unitCtbn unitCtbn.rates L [0]) :=
  (sample_law_iff unit_describes unit_ok someCategorical (fun vals hr v hv => by
    rw [← weights_sum, (unit_rates hr hv).2])).2 (fun vals hR v hv => (unit_rates (reaches_path unit_describes unit_ok hR).1 hv).1) L hL

/-- C177: the moves behind the rows of `samples3`. -/
example : ∃ (ms : List Move) (rows₀ : List (ℚ × List Nat)), net.movesR ms.length (realDraws draws) net.initClock = .ok ms ∧
    FramesMatch rows₀ (movesFrames 0 [0, 0] ms) ∧
    [(0, [0, 0]), (3333/10000, [0, 1]), (8333/10000, [0, 0]), (1, [-1, -1])] = SampleNet.terminate rows₀ :=
  sample_rows_of_moves describes ok samples3

end Demo

end PyCTBN
