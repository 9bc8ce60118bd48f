import Verif.Props.TrajGen
import Mathlib.Algebra.BigOperators.Group.Finset.Basic
import Mathlib.Algebra.Order.BigOperators.Group.Finset
import Mathlib.Algebra.Order.Archimedean.Basic

/-!
# Sampling with an end time only returns (C70)
-/

namespace PyCTBN
open Spec

section
variable {net : SampleNet} {N : Ctbn} {tEnd : ℚ} {maxTr : ℤ} {draws : SampleDraws}

/-- Every drawn waiting time (a standard draw scaled with any exit intensity of the network) is at least `δ`. -/
def WaitsAtLeast (N : Ctbn) (draws : SampleDraws) (δ : ℚ) : Prop :=
  ∀ vals, N.InRange vals → ∀ v ∈ N.vars, ∀ n i, δ ≤ N.exitRate vals v * draws.exp n i

/-- There are numbers `c i` of events of the variables, which add up to the transitions made so far, such that the event number `c i` of
variable `i` took at least `c i · δ` time and the pending event of `i` takes at least `δ` more. -/
def Paced (N : Ctbn) (δ : ℚ) (s : SampleState) : Prop :=
  ∃ c : Nat → Nat, (∑ i ∈ Finset.range N.vars.length, c i) = s.nTr ∧ (∀ i, c i * δ ≤ s.t) ∧
    ∀ (i : Nat) (x : ℚ), s.timers[i]? = some (some x) → (c i + 1) * δ ≤ x

theorem paced_step (hD : Describes net N) (hOK : N.OK) {δ : ℚ} (hδ : 0 < δ) (hw : WaitsAtLeast N draws δ) {s s' : SampleState}
    (h : GoodState N s) (hp : Paced N δ s) (htm : ∀ (i : Nat) (x : ℚ), s.timers[i]? = some (some x) → s.t ≤ x)
    (hs : net.step tEnd maxTr draws s = .ok (.next s')) : Paced N δ s' := by
  obtain ⟨c, hc1, hc2, hc3⟩ := hp
  obtain ⟨cur, c1, c2, c3⟩ := h.last
  obtain ⟨times, k, t, v, e1, e2, e3, e4, e5, e6⟩ := step_spec (tEnd := tEnd) (maxTr := maxTr) (draws := draws) hD hOK c1 c3 h.timers
  obtain ⟨times', f1, f2, f3⟩ := fillTimers_spec hD hOK c3 s.t (draws.exp s.nTr) h.timers
  rw [e1] at f1
  cases f1
  have hge : ∀ (i : Nat) (x : ℚ), times[i]? = some x → (c i + 1) * δ ≤ x ∧ s.t ≤ x := by
    intro i x hx
    have hi : i < N.vars.length := by rw [← e2]; exact (List.getElem?_eq_some_iff.1 hx).1
    have hvi := List.getElem?_eq_getElem hi
    have hti := List.getElem?_eq_getElem (l := s.timers) (i := i) (by rw [h.timers]; exact hi)
    have := f3 i _ _ hvi hti
    rw [hx] at this
    have := Option.some.inj this
    subst this
    cases ho : s.timers[i]'(by rw [h.timers]; exact hi) with
    | some z =>
      rw [ho] at hti
      exact ⟨hc3 i z hti, htm i z hti⟩
    | none =>
      simp only [Option.getD_none]
      have := hw cur.2 c3 _ (List.getElem_mem hi) s.nTr i
      have := hc2 i
      constructor <;> linarith
  rcases e6 with ⟨-, e⟩ | ⟨hst, y, y1, y2, y3, e⟩
  · rw [hs] at e; cases e
  · rw [hs] at e
    simp only [Except.ok.injEq, SampleStep.next.injEq] at e
    subst e
    have hk : k < N.vars.length := (List.getElem?_eq_some_iff.1 e3).1
    obtain ⟨hk1, hk2⟩ := hge k t e4
    refine ⟨fun i => c i + if i = k then 1 else 0, ?_, ?_, ?_⟩
    · rw [Finset.sum_add_distrib, hc1, Finset.sum_ite_eq']
      simp [hk]
    · intro i
      dsimp only
      by_cases hik : i = k
      · subst hik; simp; linarith
      · simp only [hik, if_false, Nat.add_zero]
        exact (hc2 i).trans hk2
    · intro i x hx
      dsimp only at hx
      have hi : i < N.vars.length := by
        rw [← (undefine_spec (k := k) (v := v) hD hOK e2).1]; exact (List.getElem?_eq_some_iff.1 hx).1
      have hxt := List.getElem?_eq_getElem (l := times) (i := i) (by rw [e2]; exact hi)
      rw [(undefine_spec (k := k) (v := v) hD hOK e2).2 i _ _ (List.getElem?_eq_getElem hi) hxt] at hx
      have hx := Option.some.inj hx
      split at hx
      · cases hx
      · rename_i hno
        cases Option.some.inj hx
        have hik : i ≠ k := fun e => hno (.inl e)
        simp only [hik, if_false, Nat.add_zero]
        exact (hge i _ hxt).1

theorem paced_of_visits (hD : Describes net N) (hOK : N.OK) {δ : ℚ} (hδ : 0 < δ) (hw : WaitsAtLeast N draws δ)
    (hexp : ∀ n i, 0 ≤ draws.exp n i) {s : SampleState} (h : Visits net tEnd maxTr draws s) : Paced N δ s := by
  induction h with
  | init =>
    refine ⟨fun _ => 0, by simp [SampleNet.initState], fun i => by simp [SampleNet.initState], ?_⟩
    intro i x hx
    simp only [SampleNet.initState, List.getElem?_map] at hx
    cases hv : net.vnames[i]? with
    | none => rw [hv] at hx; simp at hx
    | some v => rw [hv] at hx; simp at hx
  | step hv hs ih => exact paced_step hD hOK hδ hw (good_of_visits hD hOK hv) ih (times_of_visits hD hOK hexp hv).pending hs

/-- In a state of the loop the number of transitions is at most `variables · t / δ`. -/
theorem Paced.bound {δ : ℚ} {s : SampleState} (h : Paced N δ s) : s.nTr * δ ≤ N.vars.length * s.t := by
  obtain ⟨c, h1, h2, -⟩ := h
  rw [← h1, Nat.cast_sum, Finset.sum_mul]
  calc ∑ i ∈ Finset.range N.vars.length, (c i : ℚ) * δ ≤ ∑ i ∈ Finset.range N.vars.length, s.t := Finset.sum_le_sum (fun i _ => h2 i)
    _ = N.vars.length * s.t := by simp

theorem run_end_time (hD : Describes net N) (hOK : N.OK) {δ : ℚ} (hδ : 0 < δ) (hw : WaitsAtLeast N draws δ)
    (hexp : ∀ n i, 0 ≤ draws.exp n i) (h0 : 0 ≤ tEnd) (maxTr : ℤ) {M : Nat} (hM : N.vars.length * tEnd < M * δ) :
    ∀ (fuel : Nat) (s : SampleState), Visits net tEnd maxTr draws s → M ≤ fuel + s.nTr → 0 < fuel →
      ∃ rows, net.run tEnd maxTr draws fuel s = .ok rows ∧ rows.length ≤ M + 1 := by
  have hbound : ∀ s, Visits net tEnd maxTr draws s → s.nTr < M := by
    intro s hv
    have h1 := (paced_of_visits hD hOK hδ hw hexp hv).bound
    have h2 := (times_of_visits hD hOK hexp hv).bound (by linarith) h0
    have h3 : (N.vars.length : ℚ) * s.t ≤ N.vars.length * tEnd := mul_le_mul_of_nonneg_left h2 (Nat.cast_nonneg _)
    have h4 : (s.nTr : ℚ) * δ < M * δ := by linarith
    exact_mod_cast lt_of_mul_lt_mul_right h4 hδ.le
  intro fuel
  induction fuel with
  | zero => intro s _ _ h; omega
  | succ fuel ih =>
    intro s hv hf _
    have hg := good_of_visits hD hOK hv
    have hb := hbound s hv
    rw [SampleNet.run]
    rcases step_returns hD hOK tEnd maxTr draws hg with ⟨t, hst, e⟩ | ⟨s', t, hst, e, hn⟩
    · rw [e]
      exact ⟨_, rfl, by rw [terminate_length, hg.len]; omega⟩
    · rw [e]
      simp only [Except.bind_ok']
      have hv' := Visits.step hv e
      have hb' := hbound s' hv'
      exact ih s' hv' (by omega) (by omega)

/-- **C70.**  With an end time, whatever the transition limit, `CTBN_Sample` returns as soon as the drawn waiting times are bounded away
from 0 (by any `δ > 0`); the number of rows is at most `variables · t_end / δ + 2`. -/
theorem sample_end_time (hD : Describes net N) (hOK : N.OK) {δ : ℚ} (hδ : 0 < δ) (hw : WaitsAtLeast N draws δ)
    (hexp : ∀ n i, 0 ≤ draws.exp n i) (h0 : 0 ≤ tEnd) (maxTr : ℤ) :
    ∃ rows, Samples net tEnd maxTr draws rows ∧ (rows.length : ℚ) ≤ N.vars.length * tEnd / δ + 2 := by
  have hfl : (0 : ℚ) ≤ N.vars.length * tEnd / δ := div_nonneg (mul_nonneg (Nat.cast_nonneg _) h0) hδ.le
  have hM : N.vars.length * tEnd < (⌊(N.vars.length * tEnd / δ : ℚ)⌋₊ + 1 : ℕ) * δ := by
    have := Nat.lt_floor_add_one (N.vars.length * tEnd / δ : ℚ)
    rw [div_lt_iff₀ hδ] at this
    push_cast
    exact this
  obtain ⟨rows, r1, r2⟩ := run_end_time hD hOK hδ hw hexp h0 maxTr hM _ net.initState .init
    (Nat.le_add_right _ _) (Nat.succ_pos _)
  refine ⟨rows, ⟨_, r1⟩, ?_⟩
  have h1 : (rows.length : ℚ) ≤ ((⌊(N.vars.length * tEnd / δ : ℚ)⌋₊ + 1 + 1 : ℕ) : ℚ) := by exact_mod_cast r2
  have := Nat.floor_le hfl
  push_cast at h1
  linarith

end

end PyCTBN

namespace PyCTBN
open Spec

/-- **C75**, on usable networks.  `multi_trajectory(max_trs=...)` returns for every list of limits, every random state of the workers and
every order of completion, with one trajectory per limit: the sequential sampler's. -/
theorem multi_max_trs {net : SampleNet} {N : Ctbn} (hD : Describes net N) (hOK : N.OK) (ms : List Nat) (draws : Nat → SampleDraws)
    {order : List Nat} (hord : order.Perm (List.range ms.length)) :
    ∃ fuel out, net.multi none (some (ms.map (fun m : Nat => (m : ℤ)))) draws order fuel = .ok (some out) ∧ out.length = ms.length ∧
      ∀ (j w m : Nat), order[j]? = some w → ms[w]? = some m → ∃ rows, out[j]? = some rows ∧ Samples net (-1) m (draws w) rows ∧ rows.length = m + 1 := by
  have hex : ∀ w m, ∃ rows, Samples net (-1) ((m : Nat) : ℤ) (draws w) rows ∧ rows.length = m + 1 := by
    intro w m
    obtain ⟨rows, h1, -, h3⟩ := sample_max_transitions hD hOK (-1) m (draws w)
    exact ⟨rows, h1, h3 rfl⟩
  choose f hf hlen using hex
  have hreq : SampleNet.requests none (some (ms.map (fun m : Nat => (m : ℤ)))) = some (ms.map (fun m : Nat => ((-1 : ℚ), (m : ℤ)))) := by
    simp [SampleNet.requests, List.map_map, Function.comp_def]
  have hzip : (ms.map (fun m : Nat => ((-1 : ℚ), (m : ℤ)))).zipIdx = ms.zipIdx.map (fun p => ((-1, (p.1 : ℤ)), p.2)) := by
    rw [List.zipIdx_map]; rfl
  have hres : List.Forall₂ (fun (r : (ℚ × ℤ) × Nat) rows => Samples net r.1.1 r.1.2 (draws r.2) rows)
      (ms.map (fun m : Nat => ((-1 : ℚ), (m : ℤ)))).zipIdx (ms.zipIdx.map (fun p => f p.2 p.1)) := by
    rw [hzip, List.forall₂_map_left_iff, List.forall₂_map_right_iff, List.forall₂_same]
    intro p _
    exact hf p.2 p.1
  obtain ⟨fuel, out, h1, h2, h3⟩ := multi_one_per_request hreq hres (order := order) (by simpa using hord)
  refine ⟨fuel, out, h1, by simpa using h2.length_eq, ?_⟩
  intro j w m hj hw
  have := congrArg (fun l => l[j]?) h3
  simp only [List.getElem?_map, hj, Option.map_some, List.getElem?_zipIdx, hw, Nat.zero_add] at this
  cases ho : out[j]? with
  | none => rw [ho] at this; cases this
  | some rows =>
    rw [ho] at this
    simp only [Option.map_some, Option.some.injEq] at this
    exact ⟨rows, rfl, this ▸ hf w m, this ▸ hlen w m⟩

end PyCTBN
