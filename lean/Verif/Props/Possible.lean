import Verif.Props.TrajGen
import Verif.Props.Json

/-!
# Exactly which trajectories can be sampled (C215)
-/

namespace PyCTBN
open Spec

/-- A possible history of the network, as rows with time stamps of four decimals: it starts at time 0 with all variables in state 0, time
does not run backwards, and from row to row one variable moves to another state with a positive intensity. -/
structure Spec.PossibleHistory (N : Ctbn) (h : List (ℚ × List Nat)) : Prop where
  first : h[0]? = some (0, N.vars.map (fun _ => 0))
  stamps : ∀ r ∈ h, FourDecimals r.1
  ordered : (h.map Prod.fst).Pairwise (· ≤ ·)
  moves : ∀ (n : Nat) (a b : ℚ × List Nat), h[n]? = some a → h[n + 1]? = some b →
    ∃ (k : Nat) (v : Label) (y : Nat), N.vars[k]? = some v ∧ y < N.card v ∧ y ≠ N.state a.2 v ∧ 0 < N.intensity a.2 v y ∧
      b.2 = a.2.set k y

/-- The frame returned for a history: the states of the last row are overwritten with -1. -/
def Spec.recorded (h : List (ℚ × List Nat)) : RawTraj :=
  h.dropLast.map (fun r => (r.1, r.2.map (fun x : Nat => (x : ℤ)))) ++ h.getLast?.toList.map (fun r => (r.1, r.2.map (fun _ => (-1 : ℤ))))

/-! ## Every outcome of the multinomial draw -/

theorem multinomial_onto {w : List ℚ} (hnn : ∀ x ∈ w, 0 ≤ x) {y : Nat} {x : ℚ} (hy : w[y]? = some x) (hx : 0 < x) :
    ∃ p, multinomial w p = .ok y := by
  have hs : 0 < w.sum := lt_of_lt_of_le hx (List.single_le_sum hnn _ (List.mem_of_getElem? hy))
  have hmem : y ∈ (w.zipIdx.filter (fun p => decide (0 < p.1 / w.sum))).map Prod.snd := by
    refine List.mem_map.2 ⟨(x, y), List.mem_filter.2 ⟨List.mem_zipIdx_iff_getElem?.2 hy, ?_⟩, rfl⟩
    simp only [decide_eq_true_eq]
    exact div_pos hx hs
  obtain ⟨p, hp⟩ := List.mem_iff_getElem?.1 hmem
  refine ⟨p, ?_⟩
  unfold multinomial
  simp only
  rw [if_neg hs.ne', if_neg]
  · rw [Nat.mod_eq_of_lt (List.getElem?_eq_some_iff.1 hp).1]
    exact pyGet_ok.2 hp
  · rw [List.any_eq_true]
    rintro ⟨x, hx, h⟩
    simp only [decide_eq_true_eq] at h
    rcases h with h | h
    · exact absurd h (not_lt.2 (div_nonneg (hnn x hx) hs.le))
    · rw [one_lt_div hs] at h
      exact absurd h (not_lt.2 (List.single_le_sum hnn _ hx))

/-- The draw with which `v` moves to `y`. -/
noncomputable def pickFor (N : Ctbn) (vals : List Nat) (v : Label) (y : Nat) : Nat :=
  Classical.epsilon (fun p => multinomial ((((N.cim v (N.parentStates vals v))[N.state vals v]?).getD []).set (N.state vals v) 0) p = .ok y)

section
variable {net : SampleNet} {N : Ctbn} (hD : Describes net N) (hOK : N.OK)
include hD hOK

theorem pickFor_spec {vals : List Nat} (hr : N.InRange vals) {v : Label} (hv : v ∈ N.vars) {y : Nat} (hy : y < N.card v)
    (hne : y ≠ N.state vals v) (hpos : 0 < N.intensity vals v y) :
    ∃ row, (N.cim v (N.parentStates vals v))[N.state vals v]? = some row ∧
      multinomial (row.set (N.state vals v) 0) (pickFor N vals v y) = .ok y := by
  obtain ⟨row, r1, r2, r3⟩ := row_spec hD hOK hr hv
  refine ⟨row, r1, ?_⟩
  have hm := matrixOK hD hOK hr hv
  have hxc := hr.2 _ hv
  have hw : ∀ j < N.card v, (row.set (N.state vals v) 0)[j]? =
      some (if j = N.state vals v then 0 else N.intensity vals v j) := by
    intro j hj
    split
    · rename_i h; subst h; rw [List.getElem?_set_self (by omega)]
    · rename_i h
      rw [List.getElem?_set_ne (Ne.symm h), r3 j hj]
  have hex : ∃ p, multinomial (row.set (N.state vals v) 0) p = .ok y := by
    refine multinomial_onto ?_ (hw y hy) (by rw [if_neg hne]; exact hpos)
    intro x hx
    obtain ⟨j, hj⟩ := List.mem_iff_getElem?.1 hx
    have hjc : j < N.card v := by
      rw [← r2]; simpa using (List.getElem?_eq_some_iff.1 hj).1
    rw [hw j hjc] at hj
    rw [← Option.some.inj hj]
    split
    · exact le_refl _
    · rename_i h; exact hm.off _ hxc j hjc h
  have := Classical.epsilon_spec hex
  unfold pickFor
  rw [r1]
  exact this

/-- One pass with a single earliest event time, that of the variable in position `k`. -/
theorem step_planned {tEnd : ℚ} {maxTr : ℤ} {draws : SampleDraws} {s : SampleState} {cur : ℚ × List Nat}
    (hcur : s.rows.getLast? = some cur) (hr : N.InRange cur.2) {times : List ℚ}
    (hfill : net.fillTimers cur.2 s.t (draws.exp s.nTr) s.timers = .ok times) {k : Nat} {v : Label} {t : ℚ} {y : Nat}
    (hk : N.vars[k]? = some v) (ht : times[k]? = some t) (hmin : ∀ (j : Nat) (x : ℚ), times[j]? = some x → j ≠ k → t < x)
    (hy : y < N.card v) (hne : y ≠ N.state cur.2 v) (hpos : 0 < N.intensity cur.2 v y) (hpick : draws.pick s.nTr = pickFor N cur.2 v y)
    (hst : SampleNet.stops tEnd maxTr t s.nTr = false) :
    net.step tEnd maxTr draws s = .ok (.next ⟨s.rows ++ [(round4 t, cur.2.set k y)], net.undefine k v times, t, s.nTr + 1⟩) := by
  have hv : v ∈ N.vars := List.mem_of_getElem? hk
  have hget : pyGet s.rows (s.rows.length - 1) = .ok cur := by
    rw [List.getLast?_eq_getElem?] at hcur
    exact pyGet_ok.2 hcur
  have hne' : times ≠ [] := by rintro rfl; simp at ht
  obtain ⟨k', t', a1, a2, a3, a4⟩ := argmin_spec hne'
  have hkk : k' = k := by
    by_contra hc
    exact absurd (hmin k' t' a2 hc) (not_lt.2 (a3 t (List.mem_of_getElem? ht)))
  subst hkk
  have htt : t' = t := by rw [ht] at a2; exact (Option.some.inj a2).symm
  subst htt
  obtain ⟨row, r1, r2⟩ := pickFor_spec hD hOK hr hv hy hne hpos
  unfold SampleNet.step
  rw [hget]
  simp only [Except.bind_ok', hfill, a1, hst]
  rw [if_neg (by simp), hD.vnames, pyGet_ok.2 hk]
  simp only [Except.bind_ok']
  rw [cimOf_spec hD hOK hr hv, valueOf_spec hD hr hv]
  simp only [Except.bind_ok']
  rw [pyGet_ok.2 r1]
  simp only [Except.bind_ok']
  rw [hpick, r2]
  rfl

end

/-! ## Plans -/

/-- The next event time of the variable in position `i` according to the plan: from pass `n` on, the first pass before `m` in which it is
its turn; otherwise the time after the plan. -/
noncomputable def nextEvent (τ : Nat → ℚ) (κ : Nat → Nat) (m n i : Nat) : ℚ := by
  classical
  exact if h : ∃ k, n ≤ k ∧ k < m ∧ κ k = i then τ (Nat.find h + 1) else τ (m + 1)

theorem nextEvent_self {τ : Nat → ℚ} {κ : Nat → Nat} {m n : Nat} (h : n < m) : nextEvent τ κ m n (κ n) = τ (n + 1) := by
  classical
  have hex : ∃ k, n ≤ k ∧ k < m ∧ κ k = κ n := ⟨n, le_refl _, h, rfl⟩
  unfold nextEvent
  rw [dif_pos hex]
  have : Nat.find hex = n := by
    refine le_antisymm (Nat.find_min' hex ⟨le_refl _, h, rfl⟩) (Nat.find_spec hex).1
  rw [this]

theorem nextEvent_other {τ : Nat → ℚ} {κ : Nat → Nat} {m n i : Nat} (hi : i ≠ κ n) : nextEvent τ κ m n i = nextEvent τ κ m (n + 1) i := by
  classical
  unfold nextEvent
  by_cases hex : ∃ k, n ≤ k ∧ k < m ∧ κ k = i
  · have hex' : ∃ k, n + 1 ≤ k ∧ k < m ∧ κ k = i := by
      obtain ⟨k, h1, h2, h3⟩ := hex
      refine ⟨k, ?_, h2, h3⟩
      rcases Nat.lt_or_ge n k with h | h
      · exact h
      · exact absurd (by rw [← h3, show k = n by omega]) hi
    rw [dif_pos hex, dif_pos hex']
    congr 2
    apply le_antisymm
    · have := Nat.find_spec hex'
      exact Nat.find_min' hex ⟨by omega, this.2⟩
    · have := Nat.find_spec hex
      refine Nat.find_min' hex' ⟨?_, this.2⟩
      rcases Nat.lt_or_ge n (Nat.find hex) with h | h
      · exact h
      · exact absurd (by rw [← this.2.2, show Nat.find hex = n by omega]) hi
  · have hex' : ¬ ∃ k, n + 1 ≤ k ∧ k < m ∧ κ k = i := fun ⟨k, h1, h2⟩ => hex ⟨k, by omega, h2⟩
    rw [dif_neg hex, dif_neg hex']

theorem nextEvent_gt {τ : Nat → ℚ} (hτ : StrictMono τ) {κ : Nat → Nat} {m n i : Nat} (h : n ≤ m) : τ n < nextEvent τ κ m n i := by
  classical
  unfold nextEvent
  split
  · rename_i hex
    have := (Nat.find_spec hex).1
    exact hτ (by omega)
  · exact hτ (by omega)

theorem nextEvent_gt' {τ : Nat → ℚ} (hτ : StrictMono τ) {κ : Nat → Nat} {m n i : Nat} (h : n < m) (hi : i ≠ κ n) :
    τ (n + 1) < nextEvent τ κ m n i := by
  rw [nextEvent_other hi]
  exact nextEvent_gt hτ h

theorem nextEvent_end {τ : Nat → ℚ} {κ : Nat → Nat} {m i : Nat} : nextEvent τ κ m m i = τ (m + 1) := by
  classical
  unfold nextEvent
  rw [dif_neg]
  rintro ⟨k, h1, h2, -⟩
  omega

theorem samples_of_visits {net : SampleNet} {tEnd : ℚ} {maxTr : ℤ} {draws : SampleDraws} {s : SampleState} {rows : RawTraj}
    (hv : Visits net tEnd maxTr draws s) (hs : net.step tEnd maxTr draws s = .ok (.done rows)) : Samples net tEnd maxTr draws rows := by
  have key : ∀ {s}, Visits net tEnd maxTr draws s → ∀ fuel, net.run tEnd maxTr draws fuel s = .ok rows →
      ∃ fuel', net.run tEnd maxTr draws fuel' net.initState = .ok rows := by
    intro s hv
    induction hv with
    | init => exact fun fuel h => ⟨fuel, h⟩
    | step _ hs ih =>
      intro fuel h
      apply ih (fuel + 1)
      rw [SampleNet.run, hs]
      exact h
  apply key hv 1
  rw [SampleNet.run, hs]
  rfl

section
variable {net : SampleNet} {N : Ctbn} (hD : Describes net N) (hOK : N.OK)
include hD hOK

/-- Every plan of moves at increasing times is carried out with suitable positive draws, which do not depend on the limits. -/
theorem plan_sampled (hrate : ∀ vals, N.InRange vals → ∀ v ∈ N.vars, 0 < N.exitRate vals v) {m : Nat} {τ : Nat → ℚ} (hτ : StrictMono τ)
    (h0 : τ 0 = 0) {a : Nat → List Nat} (ha0 : a 0 = N.vars.map (fun _ => 0)) {κ y : Nat → Nat}
    (hmove : ∀ n < m, ∃ v, N.vars[κ n]? = some v ∧ y n < N.card v ∧ y n ≠ N.state (a n) v ∧ 0 < N.intensity (a n) v (y n) ∧
      a (n + 1) = (a n).set (κ n) (y n)) :
    ∃ draws : SampleDraws, (∀ n i, 0 < draws.exp n i) ∧ ∀ tEnd maxTr, (∀ n < m, SampleNet.stops tEnd maxTr (τ (n + 1)) n = false) →
      SampleNet.stops tEnd maxTr (τ (m + 1)) m = true →
      Samples net tEnd maxTr draws (recorded ((List.range (m + 1)).map (fun n => (round4 (τ n), a n)))) := by
  classical
  have hin : ∀ n ≤ m, N.InRange (a n) := by
    intro n
    induction n with
    | zero => intro _; rw [ha0]; exact zeros_inRange hOK
    | succ n ih =>
      intro hn
      obtain ⟨v, h1, h2, -, -, h5⟩ := hmove n hn
      rw [h5]
      exact inRange_set hOK (ih (by omega)) h1 h2
  let draws : SampleDraws :=
    ⟨fun n i => if h : n ≤ m ∧ i < N.vars.length then (nextEvent τ κ m n i - τ n) / N.exitRate (a n) (N.vars[i]'h.2) else 1,
     fun n => pickFor N (a n) (N.vars.getD (κ n) "") (y n)⟩
  have hexp : ∀ n i (h : n ≤ m ∧ i < N.vars.length),
      draws.exp n i = (nextEvent τ κ m n i - τ n) / N.exitRate (a n) (N.vars[i]'h.2) := by
    intro n i h
    simp only [draws, dif_pos h]
  refine ⟨draws, ?_, ?_⟩
  · intro n i
    by_cases h : n ≤ m ∧ i < N.vars.length
    · rw [hexp n i h]
      exact div_pos (sub_pos.2 (nextEvent_gt hτ h.1)) (hrate _ (hin n h.1) _ (List.getElem_mem _))
    · simp only [draws, dif_neg h]; norm_num
  · intro tEnd maxTr hgo hstop
    -- the states gone through
    have key : ∀ n ≤ m, ∃ s, Visits net tEnd maxTr draws s ∧ s.rows = (List.range (n + 1)).map (fun n => (round4 (τ n), a n)) ∧
        s.t = τ n ∧ s.nTr = n ∧ s.timers.length = N.vars.length ∧
        ∀ i < N.vars.length, s.timers[i]? = some none ∨ s.timers[i]? = some (some (nextEvent τ κ m n i)) := by
      have filled : ∀ n ≤ m, ∀ s : SampleState, s.t = τ n → s.nTr = n → s.timers.length = N.vars.length →
          (∀ i < N.vars.length, s.timers[i]? = some none ∨ s.timers[i]? = some (some (nextEvent τ κ m n i))) →
          ∃ times, net.fillTimers (a n) s.t (draws.exp s.nTr) s.timers = .ok times ∧ times.length = N.vars.length ∧
            ∀ i < N.vars.length, times[i]? = some (nextEvent τ κ m n i) := by
        intro n hn s h1 h2 h3 h4
        obtain ⟨times, f1, f2, f3⟩ := fillTimers_spec hD hOK (hin n hn) s.t (draws.exp s.nTr) h3
        refine ⟨times, f1, f2, fun i hi => ?_⟩
        rcases h4 i hi with h | h
        · rw [f3 i _ _ (List.getElem?_eq_getElem hi) h, h1, h2, hexp n i ⟨hn, hi⟩]
          have := (hrate _ (hin n hn) _ (List.getElem_mem hi)).ne'
          simp only [Option.getD_none]
          rw [mul_div_cancel₀ _ this]
          congr 1; ring
        · rw [f3 i _ _ (List.getElem?_eq_getElem hi) h]; rfl
      intro n
      induction n with
      | zero =>
        intro _
        refine ⟨_, .init, ?_, by simp [SampleNet.initState, h0], rfl, by simp [SampleNet.initState, hD.vnames], ?_⟩
        · simp [SampleNet.initState, h0, round4_zero, ha0, hD.vnames]
        · intro i hi
          left
          simp [SampleNet.initState, hD.vnames, hi]
      | succ n ih =>
        intro hn
        obtain ⟨s, s1, s2, s3, s4, s5, s6⟩ := ih (by omega)
        obtain ⟨times, f1, f2, f3⟩ := filled n (by omega) s s3 s4 s5 s6
        obtain ⟨v, m1, m2, m3, m4, m5⟩ := hmove n hn
        have hκ : κ n < N.vars.length := (List.getElem?_eq_some_iff.1 m1).1
        have hlast : s.rows.getLast? = some (round4 (τ n), a n) := by
          rw [s2, List.range_succ]; simp
        have hstep := step_planned (tEnd := tEnd) (maxTr := maxTr) (draws := draws) hD hOK hlast (hin n (by omega)) f1 m1
          (t := τ (n + 1)) (by rw [f3 _ hκ, nextEvent_self (by omega)])
          (by
            intro j x hx hj
            have hjl : j < N.vars.length := by rw [← f2]; exact (List.getElem?_eq_some_iff.1 hx).1
            rw [f3 j hjl] at hx
            rw [← Option.some.inj hx]
            exact nextEvent_gt' hτ (by omega) hj) m2 m3 m4 (by
            show pickFor N (a s.nTr) (N.vars.getD (κ s.nTr) "") (y s.nTr) = _
            rw [s4, List.getD_eq_getElem?_getD, m1]; rfl) (by rw [s4]; exact hgo n (by omega))
        refine ⟨_, .step s1 hstep, ?_, rfl, by rw [s4], (undefine_spec hD hOK f2).1, ?_⟩
        · rw [s2, List.range_succ (n := n + 1), List.map_append, ← m5]; rfl
        · intro i hi
          have := (undefine_spec hD hOK (k := κ n) (v := v) f2).2 i _ _ (List.getElem?_eq_getElem hi) (f3 i hi)
          rw [this]
          by_cases hc : i = κ n ∨ v ∈ N.parents N.vars[i]
          · left; rw [if_pos hc]
          · right
            rw [if_neg hc, nextEvent_other (fun e => hc (.inl e))]
    obtain ⟨s, s1, s2, s3, s4, s5, s6⟩ := key m (le_refl _)
    have hlast : s.rows.getLast? = some (round4 (τ m), a m) := by
      rw [s2, List.range_succ]; simp
    obtain ⟨times, k, t, v, e1, e2, e3, e4, e5, e6⟩ := step_spec (tEnd := tEnd) (maxTr := maxTr) (draws := draws) hD hOK hlast (hin m (le_refl _)) s5
    have hkl : k < N.vars.length := (List.getElem?_eq_some_iff.1 e3).1
    obtain ⟨times', f1, f2, f3⟩ := fillTimers_spec hD hOK (hin m (le_refl _)) s.t (draws.exp s.nTr) s5
    rw [e1] at f1; cases f1
    have ht : t = τ (m + 1) := by
      have hk := List.getElem?_eq_getElem hkl
      rcases s6 k hkl with h | h
      · have := f3 k _ _ hk h
        rw [e4, s3, s4, hexp m k ⟨le_refl _, hkl⟩] at this
        have hr := (hrate _ (hin m (le_refl _)) _ (List.getElem_mem hkl)).ne'
        simp only [Option.getD_none] at this
        rw [mul_div_cancel₀ _ hr] at this
        rw [Option.some.inj this, nextEvent_end]; ring
      · have := f3 k _ _ hk h
        rw [e4] at this
        rw [Option.some.inj this, nextEvent_end]; rfl
    subst ht
    rcases e6 with ⟨-, e⟩ | ⟨hno, -⟩
    · have := samples_of_visits s1 e
      rw [s2] at this
      exact this
    · rw [s4, hstop] at hno; cases hno

end

/-! ## Times behind the stamps -/

theorem round4_of_near {t δ : ℚ} (ht : FourDecimals t) (h0 : 0 ≤ δ) (h1 : δ < 1 / 20000) : round4 (t + δ) = t := by
  obtain ⟨k, rfl⟩ := ht
  unfold round4
  have : rint (((k : ℚ) / 10000 + δ) * 10000) = k := by
    apply rint_eq_of_near
    rw [abs_lt]
    constructor <;> linarith
  rw [this]

theorem round4_four {t : ℚ} (ht : FourDecimals t) : round4 t = t := by
  have := round4_of_near ht (le_refl 0) (by norm_num)
  rwa [add_zero] at this

/-- Behind stamps that do not decrease there are increasing times; those before the limit `T`, if the last stamp is that of a time `s`
before `T`. -/
theorem times_behind {M : Nat} {t : Nat → ℚ} (h0 : t 0 = 0) (hd : ∀ n ≤ M, FourDecimals (t n)) (hmono : ∀ n < M, t n ≤ t (n + 1))
    {s T : ℚ} (hs0 : 0 ≤ s) (hs : round4 s = t M) (hT : s < T) :
    ∃ τ : Nat → ℚ, StrictMono τ ∧ τ 0 = 0 ∧ (∀ n ≤ M, round4 (τ n) = t n ∧ τ n < T) ∧ T ≤ τ (M + 1) := by
  -- the width of the perturbation
  obtain ⟨ε, he0, he1, he2, he3⟩ : ∃ ε : ℚ, 0 < ε ∧ M * ε < 1 / 20000 ∧ M * ε < T - s ∧ (s < t M → M * ε ≤ t M - s) := by
    by_cases hlt : s < t M
    · refine ⟨min (1 / 20000) (min (T - s) (t M - s)) / (M + 1), ?_, ?_, ?_, ?_⟩
      · exact div_pos (lt_min (by norm_num) (lt_min (by linarith) (by linarith))) (by positivity)
      all_goals
        have hpos : 0 < min (1 / 20000) (min (T - s) (t M - s)) := lt_min (by norm_num) (lt_min (by linarith) (by linarith))
        have hb : (M : ℚ) * (min (1 / 20000) (min (T - s) (t M - s)) / (M + 1)) < min (1 / 20000) (min (T - s) (t M - s)) := by
          rw [mul_div_assoc', div_lt_iff₀ (by positivity)]
          nlinarith
      · exact lt_of_lt_of_le hb (min_le_left _ _)
      · exact lt_of_lt_of_le hb ((min_le_right _ _).trans (min_le_left _ _))
      · exact fun _ => (lt_of_lt_of_le hb ((min_le_right _ _).trans (min_le_right _ _))).le
    · refine ⟨min (1 / 20000) (T - s) / (M + 1), ?_, ?_, ?_, fun h => absurd h hlt⟩
      · exact div_pos (lt_min (by norm_num) (by linarith)) (by positivity)
      all_goals
        have hpos : 0 < min (1 / 20000) (T - s) := lt_min (by norm_num) (by linarith)
        have hb : (M : ℚ) * (min (1 / 20000) (T - s) / (M + 1)) < min (1 / 20000) (T - s) := by
          rw [mul_div_assoc', div_lt_iff₀ (by positivity)]
          nlinarith
      · exact lt_of_lt_of_le hb (min_le_left _ _)
      · exact lt_of_lt_of_le hb (min_le_right _ _)
  have hle : ∀ n ≤ M, (n : ℚ) * ε ≤ M * ε := by
    intro n hn
    have : (n : ℚ) ≤ M := by exact_mod_cast hn
    nlinarith
  have htM : ∀ n ≤ M, t n ≤ t M := by
    intro n hn
    obtain ⟨d, rfl⟩ := Nat.exists_eq_add_of_le hn
    clear hs he3 hle he1 he2
    induction d with
    | zero => exact le_refl _
    | succ d ih =>
      exact (ih (fun k hk => hd k (by omega)) (fun k hk => hmono k (by omega)) (by omega)).trans (hmono (n + d) (by omega))
  refine ⟨fun n => if n ≤ M then min (t n) s + n * ε else T + n, ?_, ?_, ?_, ?_⟩
  · apply strictMono_nat_of_lt_succ
    intro n
    by_cases h1 : n + 1 ≤ M
    · simp only [if_pos h1, if_pos (show n ≤ M by omega)]
      have := min_le_min_right s (hmono n (by omega))
      push_cast
      linarith
    · by_cases h2 : n ≤ M
      · simp only [if_neg h1, if_pos h2]
        have h3 := hle n h2
        have h4 := min_le_right (t n) s
        have h5 : (0 : ℚ) ≤ ((n + 1 : Nat) : ℚ) := by positivity
        linarith
      · simp only [if_neg h1, if_neg h2]
        push_cast; linarith
  · simp [h0, hs0]
  · intro n hn
    simp only [if_pos hn]
    have hne0 : 0 ≤ (n : ℚ) * ε := by positivity
    have hnl := hle n hn
    refine ⟨?_, by have := min_le_right (t n) s; linarith⟩
    rcases le_or_gt (t n) s with hts | hts
    · rw [min_eq_left hts]
      exact round4_of_near (hd n hn) hne0 (by linarith)
    · rw [min_eq_right hts.le]
      have hsM : s < t M := lt_of_lt_of_le hts (htM n hn)
      have heq : t n = t M := by
        apply le_antisymm (htM n hn)
        have := round4_mono hts.le
        rwa [hs, round4_four (hd n hn)] at this
      rw [heq]
      apply le_antisymm
      · have := round4_mono (show s + n * ε ≤ t M by have := he3 hsM; linarith)
        rwa [round4_four (hd M (le_refl _))] at this
      · have := round4_mono (show s ≤ s + n * ε by linarith)
        rwa [hs] at this
  · simp only [if_neg (show ¬ M + 1 ≤ M by omega)]
    have : (0 : ℚ) ≤ ((M + 1 : Nat) : ℚ) := by positivity
    linarith

/-! ## C215 -/

section
variable {net : SampleNet} {N : Ctbn} {tEnd : ℚ} {maxTr : ℤ} {draws : SampleDraws}

theorem round4_fourDecimals (q : ℚ) : FourDecimals (round4 q) := ⟨rint (q * 10000), rfl⟩

theorem visits_possible (hD : Describes net N) (hOK : N.OK) (hexp : ∀ n i, 0 ≤ draws.exp n i) {s : SampleState}
    (h : Visits net tEnd maxTr draws s) : PossibleHistory N s.rows := by
  have hsort := (times_of_visits hD hOK hexp h).sorted
  have hfirst := (good_of_visits hD hOK h).first
  refine ⟨hfirst, ?_, hsort, ?_⟩
  · clear hsort hfirst
    induction h with
    | init =>
      intro r hr
      simp only [SampleNet.initState, List.mem_singleton] at hr
      subst hr
      exact ⟨0, by simp⟩
    | step hv hs ih =>
      obtain ⟨cur, times, k, v, y, -, -, -, -, -, -, -, -, e⟩ := event_is_earliest hD hOK hv hs
      intro r hr
      rw [e] at hr
      rcases List.mem_append.1 hr with hr | hr
      · exact ih r hr
      · rw [List.mem_singleton] at hr; subst hr; exact round4_fourDecimals _
  · clear hsort hfirst
    induction h with
    | init =>
      intro n a b _ hb
      simp [SampleNet.initState] at hb
    | @step s s' hv hs ih =>
      obtain ⟨cur, times, k, v, y, c1, -, c3, -, -, c4, c5, c6, e⟩ := event_is_earliest hD hOK hv hs
      intro n a b ha hb
      rw [e] at ha hb
      rcases Nat.lt_or_ge (n + 1) s.rows.length with hn | hn
      · rw [List.getElem?_append_left hn] at hb
        rw [List.getElem?_append_left (by omega)] at ha
        exact ih n a b ha hb
      · have hn' : n + 1 = s.rows.length := by
          have := (List.getElem?_eq_some_iff.1 hb).1
          simp at this; omega
        rw [List.getElem?_append_right hn, hn'] at hb
        rw [List.getElem?_append_left (by omega)] at ha
        rw [List.getLast?_eq_getElem?, show s.rows.length - 1 = n by omega, ha] at c1
        cases c1
        simp only [Nat.sub_self, List.getElem?_cons_zero, Option.some.injEq] at hb
        subst hb
        exact ⟨k, v, y, c3, c4, c5, c6, rfl⟩

/-- A possible history is sampled with positive draws under all limits that stop at its end. -/
theorem history_sampled (hD : Describes net N) (hOK : N.OK) (hrate : ∀ vals, N.InRange vals → ∀ v ∈ N.vars, 0 < N.exitRate vals v)
    {h : List (ℚ × List Nat)} (hh : PossibleHistory N h) {last : ℚ × List Nat} (hl : h.getLast? = some last) {s T : ℚ} (hs0 : 0 ≤ s)
    (hs : round4 s = last.1) (hT : s < T) :
    ∃ draws : SampleDraws, (∀ n i, 0 < draws.exp n i) ∧ ∀ tEnd maxTr,
      (∀ n < h.length - 1, ∀ t < T, SampleNet.stops tEnd maxTr t n = false) →
      (∀ t, T ≤ t → SampleNet.stops tEnd maxTr t (h.length - 1) = true) →
      Samples net tEnd maxTr draws (recorded h) := by
  classical
  have hpos : 0 < h.length := List.length_pos_of_mem (List.mem_of_getLast? hl)
  let row : Nat → ℚ × List Nat := fun n => (h[n]?).getD (0, [])
  have hrow : ∀ n ≤ h.length - 1, h[n]? = some (row n) := by
    intro n hn
    simp only [row]
    rw [List.getElem?_eq_getElem (by omega)]; rfl
  have hM : row (h.length - 1) = last := by
    have := hrow _ (le_refl _)
    rw [← List.getLast?_eq_getElem?, hl] at this
    exact (Option.some.inj this).symm
  obtain ⟨τ, t1, t2, t3, t4⟩ := times_behind (M := h.length - 1) (t := fun n => (row n).1)
    (by
      have := hrow 0 (by omega)
      rw [hh.first] at this
      show (row 0).1 = 0
      rw [← Option.some.inj this])
    (fun n hn => hh.stamps _ (List.mem_of_getElem? (hrow n hn)))
    (by
      intro n hn
      have e1 := hrow n (by omega)
      have e2 := hrow (n + 1) (by omega)
      have := List.pairwise_iff_getElem.1 hh.ordered n (n + 1) (by rw [List.length_map]; omega) (by rw [List.length_map]; omega) (by omega)
      rw [List.getElem_map, List.getElem_map] at this
      rw [(List.getElem?_eq_some_iff.1 e1).2, (List.getElem?_eq_some_iff.1 e2).2] at this
      exact this) hs0 (by rw [hM]; exact hs) hT
  have hmv : ∀ n, ∃ k y : Nat, n < h.length - 1 → ∃ v, N.vars[k]? = some v ∧ y < N.card v ∧ y ≠ N.state (row n).2 v ∧
      0 < N.intensity (row n).2 v y ∧ (row (n + 1)).2 = (row n).2.set k y := by
    intro n
    by_cases hn : n < h.length - 1
    · obtain ⟨k, v, y, m1, m2, m3, m4, m5⟩ := hh.moves n _ _ (hrow n (by omega)) (hrow (n + 1) (by omega))
      exact ⟨k, y, fun _ => ⟨v, m1, m2, m3, m4, m5⟩⟩
    · exact ⟨0, 0, fun h => absurd h hn⟩
  choose κ y hκ using hmv
  obtain ⟨draws, d1, d2⟩ := plan_sampled hD hOK hrate (m := h.length - 1) t1 t2 (a := fun n => (row n).2) (by
    have := hrow 0 (by omega)
    rw [hh.first] at this
    show (row 0).2 = _
    rw [← Option.some.inj this]) (κ := κ) (y := y) (fun n hn => hκ n hn)
  refine ⟨draws, d1, fun tEnd maxTr g1 g2 => ?_⟩
  have := d2 tEnd maxTr (fun n hn => g1 n hn _ (t3 (n + 1) (by omega)).2) (g2 _ t4)
  have e : (List.range (h.length - 1 + 1)).map (fun n => (round4 (τ n), (row n).2)) = h := by
    apply List.ext_getElem?
    intro i
    rw [List.getElem?_map]
    rcases Nat.lt_or_ge i h.length with hi | hi
    · rw [List.getElem?_range (by omega), hrow i (by omega)]
      show some (round4 (τ i), (row i).2) = some (row i)
      rw [(t3 i (by omega)).1]
    · rw [List.getElem?_eq_none hi, List.getElem?_eq_none (by simp; omega)]; rfl
  rw [e] at this
  exact this

/-- **C215**, with `max_tr = m`.  Exactly the possible histories of `m` moves, with the last row overwritten, are returned for some draws; and
already for some positive ones. -/
theorem possible_samples (hD : Describes net N) (hOK : N.OK) (hrate : ∀ vals, N.InRange vals → ∀ v ∈ N.vars, 0 < N.exitRate vals v)
    (m : Nat) (rows : RawTraj) :
    ((∃ draws : SampleDraws, (∀ n i, 0 ≤ draws.exp n i) ∧ Samples net (-1) m draws rows) ↔
      ∃ h, PossibleHistory N h ∧ h.length = m + 1 ∧ rows = recorded h) ∧
    ((∃ draws : SampleDraws, (∀ n i, 0 ≤ draws.exp n i) ∧ Samples net (-1) m draws rows) →
      ∃ draws : SampleDraws, (∀ n i, 0 < draws.exp n i) ∧ Samples net (-1) m draws rows) := by
  have h1 : (∃ draws : SampleDraws, (∀ n i, 0 ≤ draws.exp n i) ∧ Samples net (-1) m draws rows) →
      ∃ h, PossibleHistory N h ∧ h.length = m + 1 ∧ rows = recorded h := by
    rintro ⟨draws, hexp, h⟩
    obtain ⟨s, hv, hs⟩ := samples_visits h
    have hr := done_rows hD hOK hv hs
    obtain ⟨rows', k1, -, k3⟩ := sample_max_transitions hD hOK (-1) m draws
    have hu := samples_unique h k1
    refine ⟨s.rows, visits_possible hD hOK hexp hv, ?_, hr⟩
    rw [← terminate_length, ← hr, hu, k3 rfl]
  have h2 : (∃ h, PossibleHistory N h ∧ h.length = m + 1 ∧ rows = recorded h) →
      ∃ draws : SampleDraws, (∀ n i, 0 < draws.exp n i) ∧ Samples net (-1) m draws rows := by
    rintro ⟨h, hh, hlen, rfl⟩
    have hne : h ≠ [] := by rintro rfl; simp at hlen
    have hlast := List.getLast?_eq_some_getLast hne
    have hfd := hh.stamps _ (List.getLast_mem hne)
    have h0 : 0 ≤ (h.getLast hne).1 := by
      have e := List.getLast?_eq_getElem? (l := h)
      rw [hlast] at e
      rcases Nat.eq_zero_or_pos (h.length - 1) with hz | hp
      · rw [hz, hh.first] at e
        rw [Option.some.inj e]
      · have := List.pairwise_iff_getElem.1 hh.ordered 0 (h.length - 1) (by rw [List.length_map]; omega) (by rw [List.length_map]; omega) hp
        rw [List.getElem_map, List.getElem_map] at this
        have e0 := hh.first
        rw [(List.getElem?_eq_some_iff.1 e0).2, (List.getElem?_eq_some_iff.1 e.symm).2] at this
        exact this
    obtain ⟨draws, d1, d2⟩ := history_sampled hD hOK hrate hh hlast h0 (round4_four hfd) (lt_add_one _)
    refine ⟨draws, d1, d2 (-1) m ?_ ?_⟩
    · intro n hn t _
      unfold SampleNet.stops
      have : (n : ℤ) ≠ m := by omega
      simp [this]
    · intro t _
      unfold SampleNet.stops
      have : ((h.length - 1 : Nat) : ℤ) = m := by omega
      simp [this]
  refine ⟨⟨h1, fun h => ?_⟩, fun h => h2 (h1 h)⟩
  obtain ⟨draws, d1, d2⟩ := h2 h
  exact ⟨draws, fun n i => (d1 n i).le, d2⟩

/-- **C215**, with `t_end = T`.  Exactly the possible histories whose last stamp is that of a time before `T` (or that consist of the first row
only), with the last row overwritten, are returned for some draws. -/
theorem possible_samples_until (hD : Describes net N) (hOK : N.OK) (hrate : ∀ vals, N.InRange vals → ∀ v ∈ N.vars, 0 < N.exitRate vals v)
    {T : ℚ} (hT : 0 < T) (rows : RawTraj) :
    (∃ draws : SampleDraws, (∀ n i, 0 ≤ draws.exp n i) ∧ Samples net T (-1) draws rows) ↔
      ∃ h last s, PossibleHistory N h ∧ h.getLast? = some last ∧ 0 ≤ s ∧ s < T ∧ round4 s = last.1 ∧ rows = recorded h := by
  constructor
  · rintro ⟨draws, hexp, h⟩
    obtain ⟨s, hv, hs⟩ := samples_visits h
    have hr := done_rows hD hOK hv hs
    obtain ⟨cur, c1, -, -⟩ := (good_of_visits hD hOK hv).last
    have ht := times_of_visits hD hOK hexp hv
    refine ⟨s.rows, cur, s.t, visits_possible hD hOK hexp hv, c1, ht.nonneg, ?_, ?_, hr⟩
    · cases hv with
      | init => exact hT
      | @step s₀ _ hv' hs' =>
        obtain ⟨cur', g1, -, g3⟩ := (good_of_visits hD hOK hv').last
        obtain ⟨times, k, t, v, e1, e2, e3, e4, e5, e6⟩ := step_spec (tEnd := T) (maxTr := -1) (draws := draws) hD hOK g1 g3
          (good_of_visits hD hOK hv').timers
        rcases e6 with ⟨-, e⟩ | ⟨hno, y, -, -, -, e⟩
        · rw [hs'] at e; cases e
        · rw [hs'] at e
          simp only [Except.ok.injEq, SampleStep.next.injEq] at e
          subst e
          unfold SampleNet.stops at hno
          have : T ≠ -1 := by linarith
          simpa [this] using hno
    · have := ht.last
      rw [List.getLast?_map, c1] at this
      exact (Option.some.inj this).symm
  · rintro ⟨h, last, s, hh, hl, hs0, hsT, hs, rfl⟩
    obtain ⟨draws, d1, d2⟩ := history_sampled hD hOK hrate hh hl hs0 hs hsT
    have hne : T ≠ -1 := by linarith
    refine ⟨draws, fun n i => (d1 n i).le, d2 T (-1) ?_ ?_⟩
    · intro n _ t ht
      unfold SampleNet.stops
      simp [hne, ht]
    · intro t ht
      unfold SampleNet.stops
      simp [hne, ht]

end

end PyCTBN
