import Verif.Lemmas.Clocks
import Verif.Spec.SampleLaw
import Verif.Props.TrajGen

/-!
# Lemmas about the sampler with real-valued clocks
-/

open MeasureTheory ProbabilityTheory
open scoped ENNReal

namespace PyCTBN
open Spec

theorem argminFromR_spec (l : List ℝ) : ∀ (i : Nat) (x : ℝ) (k : Nat) (full : List ℝ), i < k → full[i]? = some x →
    (∀ j < i, ∀ y, full[j]? = some y → x < y) → (∀ j < k, ∀ y, full[j]? = some y → x ≤ y) →
    (∀ j : Nat, full[k + j]? = l[j]?) →
    full[(argminFromR i x k l).1]? = some (argminFromR i x k l).2 ∧
      (∀ y ∈ full, (argminFromR i x k l).2 ≤ y) ∧ ∀ j < (argminFromR i x k l).1, ∀ y, full[j]? = some y → (argminFromR i x k l).2 < y := by
  induction l with
  | nil =>
    intro i x k full hik hx hlt hle hfull
    refine ⟨hx, ?_, hlt⟩
    intro y hy
    obtain ⟨j, hj⟩ := List.mem_iff_getElem?.1 hy
    rcases Nat.lt_or_ge j k with h | h
    · exact hle j h y hj
    · have := hfull (j - k)
      rw [Nat.add_sub_cancel' h, hj] at this
      simp at this
  | cons z l ih =>
    intro i x k full hik hx hlt hle hfull
    have hz : full[k]? = some z := by simpa using hfull 0
    have hrest : ∀ j : Nat, full[k + 1 + j]? = l[j]? := by
      intro j
      have := hfull (j + 1)
      rw [show k + 1 + j = k + (j + 1) by ring, this]; simp
    rw [argminFromR]
    split
    · rename_i h
      refine ih k z (k + 1) full (by omega) hz ?_ ?_ hrest
      · intro j hj y hy
        exact lt_of_lt_of_le h (hle j hj y hy)
      · intro j hj y hy
        rcases Nat.lt_or_ge j k with h' | h'
        · exact le_trans h.le (hle j h' y hy)
        · have : j = k := by omega
          subst this
          rw [hz] at hy
          exact le_of_eq (Option.some.inj hy)
    · rename_i h
      refine ih i x (k + 1) full (by omega) hx hlt ?_ hrest
      intro j hj y hy
      rcases Nat.lt_or_ge j k with h' | h'
      · exact hle j h' y hy
      · have : j = k := by omega
        subst this
        rw [hz] at hy
        rw [← Option.some.inj hy]
        exact not_lt.1 h

theorem argminR_spec {l : List ℝ} (h : l ≠ []) : ∃ k x, argminR l = .ok (k, x) ∧ l[k]? = some x ∧ (∀ y ∈ l, x ≤ y) ∧
    ∀ j < k, ∀ y, l[j]? = some y → x < y := by
  cases l with
  | nil => exact absurd rfl h
  | cons x l =>
    have := argminFromR_spec l 0 x 1 (x :: l) (by omega) rfl (by omega) (by
      intro j hj y hy
      have : j = 0 := by omega
      subst this
      exact le_of_eq (by simpa using hy)) (by intro j; rw [Nat.add_comm]; simp)
    exact ⟨_, _, rfl, this⟩


/-- The weights of the multinomial choice. -/
def Spec.Ctbn.weights (N : Ctbn) (vals : List Nat) (v : Label) : List ℚ :=
  (List.range (N.card v)).map (fun y => if y = N.state vals v then 0 else N.intensity vals v y)

section
variable {net : SampleNet} {N : Ctbn} (hD : Describes net N) (hOK : N.OK)

/-- The `i`-th variable. -/
abbrev vr (N : Ctbn) (i : Fin N.vars.length) : Label := N.vars[i]

/-- The clock `k` rings first. -/
def FirstAt {m : Nat} (x : Fin m → ℝ) (k : Fin m) : Prop := ∀ w, w ≠ k → if w < k then x k < x w else x k ≤ x w

/-- The times to the next event of each variable: those in `D` are left from before, the others are drawn. -/
noncomputable def mixTimes (N : Ctbn) (vals : List Nat) (D : Fin N.vars.length → Prop) [DecidablePred D] (r e : Fin N.vars.length → ℝ) : Fin N.vars.length → ℝ :=
  fun i => if D i then r i else (N.exitRate vals (vr N i) : ℝ) * e i

/-- The variables whose clocks go on after a move of the variable `k`. -/
def keeps (N : Ctbn) (k : Fin N.vars.length) (w : Fin N.vars.length) : Prop := w ≠ k ∧ vr N k ∉ N.parents (vr N w)

instance (N : Ctbn) (k : Fin N.vars.length) : DecidablePred (keeps N k) := fun w => by unfold keeps; infer_instance

/-- The state of the loop at time `t` in which the clocks in `D` have `r` to go. -/
noncomputable def clockAt (N : Ctbn) (vals : List Nat) (D : Fin N.vars.length → Prop) [DecidablePred D] (r : Fin N.vars.length → ℝ) (t : ℝ) : ClockState :=
  ⟨vals, List.ofFn (fun i => if D i then some (t + r i) else none), t⟩

include hD hOK

theorem weights_spec {vals : List Nat} (hr : N.InRange vals) {v : Label} (hv : v ∈ N.vars) :
    ∃ row, (N.cim v (N.parentStates vals v))[N.state vals v]? = some row ∧ row.set (N.state vals v) 0 = N.weights vals v := by
  obtain ⟨row, r1, r2, r3⟩ := row_spec hD hOK hr hv
  refine ⟨row, r1, ?_⟩
  apply List.ext_getElem?
  intro j
  unfold Spec.Ctbn.weights
  rw [List.getElem?_map]
  rcases Nat.lt_or_ge j (N.card v) with hj | hj
  · rw [List.getElem?_range hj, Option.map_some]
    by_cases h : j = N.state vals v
    · subst h; rw [List.getElem?_set_self (by omega), if_pos rfl]
    · rw [List.getElem?_set_ne (Ne.symm h), r3 j hj, if_neg h]
  · rw [List.getElem?_eq_none (by simp; omega), List.getElem?_eq_none (by simp; omega)]; rfl

theorem weights_nonneg {vals : List Nat} (hr : N.InRange vals) {v : Label} (hv : v ∈ N.vars) : ∀ x ∈ N.weights vals v, 0 ≤ x := by
  intro x hx
  obtain ⟨y, hy, rfl⟩ := List.mem_map.1 hx
  split_ifs with h
  · exact le_refl _
  · exact (matrixOK hD hOK hr hv).off _ (hr.2 v hv) y (List.mem_range.1 hy) h

theorem weights_pos {vals : List Nat} (hr : N.InRange vals) {v : Label} (hv : v ∈ N.vars) : 0 < (N.weights vals v).sum := by
  obtain ⟨j, hj, hji, hjp⟩ := (matrixOK hD hOK hr hv).leaves _ (hr.2 v hv)
  refine lt_of_lt_of_le hjp (List.single_le_sum (weights_nonneg hD hOK hr hv) _ (List.mem_map.2 ⟨j, List.mem_range.2 hj, ?_⟩))
  rw [if_neg hji]; rfl

theorem multinomialR_weights {vals : List Nat} (hr : N.InRange vals) {v : Label} (hv : v ∈ N.vars) (pick : List ℚ → Nat) :
    multinomialR (N.weights vals v) pick = .ok (pick (N.weights vals v)) := by
  have hs := weights_pos hD hOK hr hv
  have hnn := weights_nonneg hD hOK hr hv
  unfold multinomialR
  rw [if_neg hs.ne', if_neg]
  rw [List.any_eq_true]
  rintro ⟨x, hx, h⟩
  simp only [decide_eq_true_eq] at h
  rcases h with h | h
  · exact absurd h (not_lt.2 (div_nonneg (hnn x hx) hs.le))
  · rw [one_lt_div hs] at h
    exact absurd h (not_lt.2 (List.single_le_sum hnn _ hx))

theorem fillTimersR_clock {vals : List Nat} (hr : N.InRange vals) (D : Fin N.vars.length → Prop) [DecidablePred D] (r : Fin N.vars.length → ℝ)
    (t : ℝ) (e : Nat → ℝ) :
    net.fillTimersR vals t e (List.ofFn (fun i => if D i then some (t + r i) else none))
      = .ok (List.ofFn (fun i => t + mixTimes N vals D r (fun i => e i) i)) := by
  unfold SampleNet.fillTimersR
  rw [mapM_congr_py (f' := fun p : Option ℝ × Nat => Except.ok (p.1.getD (t + (N.exitRate vals (N.vars.getD p.2 "") : ℝ) * e p.2)))]
  · rw [mapM_pure_ok]
    congr 1
    apply List.ext_getElem (by simp)
    intro i h1 h2
    simp only [List.length_ofFn] at h2
    simp only [List.getElem_map, List.getElem_zipIdx, List.getElem_ofFn, Nat.zero_add]
    unfold mixTimes
    by_cases hd : D ⟨i, h2⟩
    · rw [if_pos hd, if_pos hd]; rfl
    · rw [if_neg hd, if_neg hd]
      simp [List.getD_eq_getElem?_getD, vr, List.getElem?_eq_getElem h2]
  · rintro ⟨o, i⟩ hoi
    have ho := List.mem_zipIdx_iff_getElem?.1 hoi
    have hi : i < N.vars.length := by simpa using (List.getElem?_eq_some_iff.1 ho).1
    cases o with
    | some x => rfl
    | none =>
      dsimp only
      rw [hD.vnames, pyGet_ok.2 (List.getElem?_eq_getElem hi)]
      simp only [Except.bind_ok']
      rw [scaleOf_spec hD hOK hr (List.getElem_mem hi)]
      simp [List.getD_eq_getElem?_getD, List.getElem?_eq_getElem hi]

theorem firstAt_exists {x : Fin N.vars.length → ℝ} (t : ℝ) :
    ∃ k, argminR (List.ofFn (fun i => t + x i)) = .ok ((k : Fin N.vars.length).val, t + x k) ∧ FirstAt x k := by
  have hne : List.ofFn (fun i => t + x i) ≠ [] := by
    intro e; exact hOK.nonempty (List.length_eq_zero_iff.1 (by simpa using congrArg List.length e))
  obtain ⟨k, τ, a1, a2, a3, a4⟩ := argminR_spec hne
  have hk : k < N.vars.length := by simpa using (List.getElem?_eq_some_iff.1 a2).1
  have hτ : t + x ⟨k, hk⟩ = τ := by
    rw [List.getElem?_ofFn, dif_pos hk] at a2
    exact Option.some.inj a2
  refine ⟨⟨k, hk⟩, by rw [a1, hτ], ?_⟩
  intro w hw
  have hget : (List.ofFn (fun i => t + x i))[w.val]? = some (t + x w) := by
    rw [List.getElem?_ofFn, dif_pos w.2]
  split_ifs with h
  · have := a4 w.val h _ hget
    linarith
  · have := a3 _ (List.mem_of_getElem? hget)
    linarith

omit hD hOK in
theorem firstAt_unique {m : Nat} {x : Fin m → ℝ} {k k' : Fin m} (h : FirstAt x k) (h' : FirstAt x k') : k = k' := by
  by_contra hne
  have h1 := h k' (Ne.symm hne)
  have h2 := h' k hne
  rcases lt_or_gt_of_ne hne with hlt | hlt
  · rw [if_neg (not_lt.2 hlt.le)] at h1
    rw [if_pos hlt] at h2
    linarith
  · rw [if_pos hlt] at h1
    rw [if_neg (not_lt.2 hlt.le)] at h2
    linarith

/-- One pass of the loop. -/
theorem passR_clock {vals : List Nat} (hr : N.InRange vals) (D : Fin N.vars.length → Prop) [DecidablePred D] (r : Fin N.vars.length → ℝ)
    (t : ℝ) (d : PassDraws) {k : Fin N.vars.length} (hk : FirstAt (mixTimes N vals D r (fun i => d.exp i)) k) :
    net.passR d (clockAt N vals D r t) =
      .ok (⟨k, d.pick (N.weights vals (vr N k)), mixTimes N vals D r (fun i => d.exp i) k⟩,
        clockAt N (vals.set k (d.pick (N.weights vals (vr N k)))) (keeps N k)
          (fun w => mixTimes N vals D r (fun i => d.exp i) w - mixTimes N vals D r (fun i => d.exp i) k)
          (t + mixTimes N vals D r (fun i => d.exp i) k)) := by
  set x := mixTimes N vals D r (fun i => d.exp i) with hx
  have hv : vr N k ∈ N.vars := List.getElem_mem _
  obtain ⟨k', a1, a2⟩ := firstAt_exists hD hOK (x := x) t
  obtain rfl := firstAt_unique hk a2
  obtain ⟨row, r1, r2⟩ := weights_spec hD hOK hr hv
  unfold SampleNet.passR clockAt
  dsimp only
  rw [fillTimersR_clock hD hOK hr D r t d.exp, ← hx]
  simp only [Except.bind_ok', a1]
  rw [hD.vnames, show pyGet N.vars k.val = .ok (vr N k) from pyGet_ok.2 (List.getElem?_eq_getElem k.2)]
  simp only [Except.bind_ok']
  rw [cimOf_spec hD hOK hr hv, valueOf_spec hD hr hv]
  simp only [Except.bind_ok']
  rw [pyGet_ok.2 r1]
  simp only [Except.bind_ok', r2]
  rw [multinomialR_weights hD hOK hr hv]
  simp only [Except.bind_ok', Except.pure_eq_ok', Except.ok.injEq, Prod.mk.injEq, Move.mk.injEq, ClockState.mk.injEq, true_and, and_true]
  refine ⟨by ring, ?_⟩
  apply List.ext_getElem (by simp [SampleNet.undefineR])
  intro i h1 h2
  simp only [List.length_ofFn] at h2
  have hiff : (i = k.val ∨ ∃ q ∈ (N.vars.map (fun v => (v, N.parents v)))[i]?, vr N k ∈ q.2) ↔ ¬ keeps N k ⟨i, h2⟩ := by
    rw [List.getElem?_map, List.getElem?_eq_getElem h2]
    simp only [keeps, Option.map_some, Option.mem_def, Option.some.injEq, exists_eq_left', ne_eq, Fin.ext_iff, vr, Fin.getElem_fin]
    tauto
  rw [← hD.parents] at hiff
  simp only [SampleNet.undefineR, List.getElem_map, List.getElem_zipIdx, List.getElem_ofFn, Nat.zero_add]
  by_cases hc : keeps N k ⟨i, h2⟩
  · rw [if_neg (fun h => hiff.1 h hc), if_pos hc]
    congr 1; ring
  · rw [if_pos (hiff.2 hc), if_neg hc]

/-- The event that the moves from a state of the clocks are as `L` says. -/
theorem movesAre_cons {U : Type} [MeasurableSpace U] {P : Measure U} (C : Categorical U P) {vals : List Nat} (hr : N.InRange vals)
    (D : Fin N.vars.length → Prop) [DecidablePred D] (r : Fin N.vars.length → ℝ) (t : ℝ) (k : Fin N.vars.length) (y : Nat) (a : ℝ) (L : List MoveEvent)
    (ω₀ : (Fin N.vars.length → ℝ) × U) (ω : ℕ → (Fin N.vars.length → ℝ) × U) :
    MovesAre (net.movesR (L.length + 1) (drawsAt C (Clocks.consSeq (ω₀, ω))) (clockAt N vals D r t)) ((k.val, y, a) :: L) ↔
      FirstAt (mixTimes N vals D r ω₀.1) k ∧ a < mixTimes N vals D r ω₀.1 k ∧ C.pick (N.weights vals (vr N k)) ω₀.2 = y ∧
        MovesAre (net.movesR L.length (drawsAt C ω) (clockAt N (vals.set k y) (keeps N k)
          (fun w => mixTimes N vals D r ω₀.1 w - mixTimes N vals D r ω₀.1 k) (t + mixTimes N vals D r ω₀.1 k))) L := by
  have hd0 : (fun i : Fin N.vars.length => (drawsAt C (Clocks.consSeq (ω₀, ω)) 0).exp i) = ω₀.1 := by
    funext i; simp [drawsAt, Clocks.consSeq]
  have hpick : ∀ w, (drawsAt C (Clocks.consSeq (ω₀, ω)) 0).pick w = C.pick w ω₀.2 := fun w => rfl
  have hsh : (fun j => drawsAt C (Clocks.consSeq (ω₀, ω)) (j + 1)) = drawsAt C ω := rfl
  obtain ⟨k', -, hk'⟩ := firstAt_exists hD hOK (x := mixTimes N vals D r ω₀.1) t
  have hp := passR_clock hD hOK hr D r t (drawsAt C (Clocks.consSeq (ω₀, ω)) 0) (k := k') (by rw [hd0]; exact hk')
  rw [hd0, hpick] at hp
  rw [SampleNet.movesR, hp, hsh]
  simp only [Except.bind_ok']
  constructor
  · rintro ⟨ms, h1, h2⟩
    cases hm : net.movesR L.length (drawsAt C ω) (clockAt N (vals.set k' (C.pick (N.weights vals (vr N k')) ω₀.2)) (keeps N k')
          (fun w => mixTimes N vals D r ω₀.1 w - mixTimes N vals D r ω₀.1 k') (t + mixTimes N vals D r ω₀.1 k')) with
    | error e => rw [hm] at h1; cases h1
    | ok ms' =>
      rw [hm] at h1
      simp only [Except.bind_ok', Except.pure_eq_ok', Except.ok.injEq] at h1
      subst h1
      obtain ⟨⟨c1, c2, c3⟩, h3⟩ := List.forall₂_cons.1 h2
      obtain rfl : k' = k := Fin.ext c1
      dsimp only at c2 c3
      subst c2
      exact ⟨hk', c3, rfl, ms', hm, h3⟩
  · rintro ⟨h1, h2, h3, ms, h4, h5⟩
    obtain rfl := firstAt_unique h1 hk'
    subst h3
    rw [h4]
    exact ⟨_, rfl, .cons ⟨rfl, rfl, h2⟩ h5⟩

/-! ## The probabilities -/

section
variable {U : Type} [MeasurableSpace U] {P : Measure U} (C : Categorical U P)

omit hD hOK in
theorem consSeq_eta {Ω : Type*} (ω : ℕ → Ω) : Clocks.consSeq (ω 0, fun n => ω (n + 1)) = ω := by
  funext n; cases n <;> rfl

/-- The event does not depend on the time shown by the clock. -/
theorem movesAre_shift {L : List MoveEvent} (hL : Proper N L) : ∀ {vals : List Nat}, N.InRange vals → ∀ (D : Fin N.vars.length → Prop) [DecidablePred D]
    (r : Fin N.vars.length → ℝ) (t t' : ℝ) (ω : ℕ → (Fin N.vars.length → ℝ) × U),
    MovesAre (net.movesR L.length (drawsAt C ω) (clockAt N vals D r t)) L ↔ MovesAre (net.movesR L.length (drawsAt C ω) (clockAt N vals D r t')) L := by
  induction L with
  | nil =>
    intro vals hr D _ r t t' ω
    simp only [List.length_nil, SampleNet.movesR]
  | cons c L ih =>
    intro vals hr D _ r t t' ω
    obtain ⟨k, y, a⟩ := c
    obtain ⟨v, hv, hy, ha⟩ := hL _ List.mem_cons_self
    obtain ⟨hk, rfl⟩ := List.getElem?_eq_some_iff.1 hv
    have hr' : N.InRange (vals.set k y) := inRange_set hOK hr hv hy
    rw [← consSeq_eta ω, List.length_cons, movesAre_cons hD hOK C hr D r t ⟨k, hk⟩ y a L, movesAre_cons hD hOK C hr D r t' ⟨k, hk⟩ y a L]
    rw [ih (fun c hc => hL c (List.mem_cons_of_mem _ hc)) hr']

/-- The draws and remaining times for which the moves are as `L` says. -/
def moveSet (net : SampleNet) (N : Ctbn) (C : Categorical U P) (L : List MoveEvent) (vals : List Nat) (D : Fin N.vars.length → Prop) [DecidablePred D] :
    Set ((Fin N.vars.length → ℝ) × (ℕ → (Fin N.vars.length → ℝ) × U)) :=
  {p | MovesAre (net.movesR L.length (drawsAt C p.2) (clockAt N vals D p.1 0)) L}

theorem mem_moveSet_cons {L : List MoveEvent} (hL : Proper N L) {vals : List Nat} (hr : N.InRange vals) (D : Fin N.vars.length → Prop) [DecidablePred D]
    {k : Fin N.vars.length} {y : Nat} (hy : y < N.card (vr N k)) (a : ℝ) (r : Fin N.vars.length → ℝ)
    (ω₀ : (Fin N.vars.length → ℝ) × U) (ω : ℕ → (Fin N.vars.length → ℝ) × U) :
    (r, Clocks.consSeq (ω₀, ω)) ∈ moveSet net N C ((k.val, y, a) :: L) vals D ↔
      FirstAt (mixTimes N vals D r ω₀.1) k ∧ a < mixTimes N vals D r ω₀.1 k ∧ C.pick (N.weights vals (vr N k)) ω₀.2 = y ∧
        ((fun w => mixTimes N vals D r ω₀.1 w - mixTimes N vals D r ω₀.1 k), ω) ∈ moveSet net N C L (vals.set k y) (keeps N k) := by
  have hr' : N.InRange (vals.set k y) := inRange_set hOK hr (List.getElem?_eq_getElem k.2) hy
  unfold moveSet
  simp only [Set.mem_setOf_eq, List.length_cons]
  rw [movesAre_cons hD hOK C hr D r 0 k y a L, movesAre_shift hD hOK C hL hr' _ _ _ 0]

omit hD hOK in
theorem measurableSet_firstAt {m : Nat} (k : Fin m) : MeasurableSet {x : Fin m → ℝ | FirstAt x k} := by
  have : {x : Fin m → ℝ | FirstAt x k} = ⋂ w, {x : Fin m → ℝ | w ≠ k → if w < k then x k < x w else x k ≤ x w} := by
    ext; simp [FirstAt]
  rw [this]
  refine MeasurableSet.iInter (fun w => ?_)
  by_cases hw : w ≠ k
  · by_cases hb : w < k
    · simp only [hw, hb, if_true, ne_eq, not_false_eq_true, true_implies]
      exact measurableSet_lt (measurable_pi_apply k) (measurable_pi_apply w)
    · simp only [hw, hb, if_false, ne_eq, not_false_eq_true, true_implies]
      exact measurableSet_le (measurable_pi_apply k) (measurable_pi_apply w)
  · simp [hw]

omit hD hOK in
theorem measurable_mixTimes {α : Type*} [MeasurableSpace α] (vals : List Nat) (D : Fin N.vars.length → Prop) [DecidablePred D]
    {r e : α → Fin N.vars.length → ℝ} (hr : Measurable r) (he : Measurable e) : Measurable (fun p => mixTimes N vals D (r p) (e p)) := by
  refine measurable_pi_lambda _ (fun w => ?_)
  unfold mixTimes
  by_cases hw : D w
  · simp only [hw, if_true]; exact (measurable_pi_apply w).comp hr
  · simp only [hw, if_false]; exact ((measurable_pi_apply w).comp he).const_mul _

theorem measurableSet_moveSet {L : List MoveEvent} (hL : Proper N L) : ∀ {vals : List Nat}, N.InRange vals → ∀ (D : Fin N.vars.length → Prop) [DecidablePred D],
    MeasurableSet (moveSet net N C L vals D) := by
  induction L with
  | nil =>
    intro vals hr D _
    have : moveSet net N C [] vals D = Set.univ := by
      ext p
      simp only [moveSet, List.length_nil, SampleNet.movesR, Set.mem_setOf_eq, Set.mem_univ, iff_true]
      exact ⟨[], rfl, .nil⟩
    rw [this]; exact MeasurableSet.univ
  | cons c L ih =>
    intro vals hr D _
    obtain ⟨k, y, a⟩ := c
    obtain ⟨v, hv, hy, ha⟩ := hL _ List.mem_cons_self
    obtain ⟨hk, rfl⟩ := List.getElem?_eq_some_iff.1 hv
    have hr' : N.InRange (vals.set k y) := inRange_set hOK hr hv hy
    have hL' : Proper N L := fun c hc => hL c (List.mem_cons_of_mem _ hc)
    let X : (Fin N.vars.length → ℝ) × (ℕ → (Fin N.vars.length → ℝ) × U) → Fin N.vars.length → ℝ := fun p => mixTimes N vals D p.1 (p.2 0).1
    have hX : Measurable X := measurable_mixTimes vals D measurable_fst (measurable_fst.comp ((measurable_pi_apply 0).comp measurable_snd))
    have hXk : ∀ w, Measurable (fun p => X p w) := fun w => (measurable_pi_apply w).comp hX
    have hset : moveSet net N C ((k, y, a) :: L) vals D = {p | FirstAt (X p) ⟨k, hk⟩} ∩ ({p | a < X p ⟨k, hk⟩} ∩
        ({p | C.pick (N.weights vals (vr N ⟨k, hk⟩)) (p.2 0).2 = y} ∩
          (fun p => ((fun w => X p w - X p ⟨k, hk⟩), fun n => p.2 (n + 1))) ⁻¹' moveSet net N C L (vals.set k y) (keeps N ⟨k, hk⟩))) := by
      ext ⟨r, ω⟩
      have := mem_moveSet_cons hD hOK C hL' hr D (k := ⟨k, hk⟩) hy a r (ω 0) (fun n => ω (n + 1))
      rw [consSeq_eta] at this
      rw [this]
      rfl
    rw [hset]
    refine (hX (measurableSet_firstAt _)).inter (((measurableSet_lt measurable_const (hXk _))).inter (MeasurableSet.inter ?_ ?_))
    · exact (measurable_snd.comp ((measurable_pi_apply 0).comp measurable_snd)) (C.meas _ _)
    · refine Measurable.prodMk (measurable_pi_lambda _ (fun w => (hXk w).sub (hXk _))) ?_ (ih hL' hr' _)
      exact measurable_pi_lambda _ (fun n => (measurable_pi_apply (n + 1)).comp measurable_snd)

variable [IsProbabilityMeasure P]

/-- The probability that the moves are as `L` says, given the remaining times. -/
noncomputable def moveProb (net : SampleNet) (N : Ctbn) (C : Categorical U P) (L : List MoveEvent) (vals : List Nat) (D : Fin N.vars.length → Prop)
    [DecidablePred D] (r : Fin N.vars.length → ℝ) : ℝ≥0∞ :=
  drawLaw N.vars.length P {ω | (r, ω) ∈ moveSet net N C L vals D}

instance exp_one_prob : IsProbabilityMeasure (expMeasure 1) := isProbabilityMeasure_expMeasure one_pos

instance drawLaw_prob (m : Nat) : IsProbabilityMeasure (drawLaw m P) := by
  unfold drawLaw; infer_instance

theorem measurable_moveProb {L : List MoveEvent} (hL : Proper N L) {vals : List Nat} (hr : N.InRange vals) (D : Fin N.vars.length → Prop) [DecidablePred D] :
    Measurable (moveProb net N C L vals D) :=
  measurable_measure_prodMk_left (measurableSet_moveSet hD hOK C hL hr D)

theorem moveProb_cons {L : List MoveEvent} (hL : Proper N L) {vals : List Nat} (hr : N.InRange vals) (D : Fin N.vars.length → Prop) [DecidablePred D]
    {k : Fin N.vars.length} {y : Nat} (hy : y < N.card (vr N k)) {a : ℝ} (ha : 0 ≤ a) (r : Fin N.vars.length → ℝ) :
    moveProb net N C ((k.val, y, a) :: L) vals D r =
      ∫⁻ e, (fun x : Fin N.vars.length → ℝ => if (∀ w, w ≠ k → if w < k then x k < x w else x k ≤ x w) ∧ a < x k then
        P {u | C.pick (N.weights vals (vr N k)) u = y} * moveProb net N C L (vals.set k y) (keeps N k) (fun w => x w - x k) else 0)
          (fun w => if D w then r w else (N.exitRate vals (vr N w) : ℝ) * e w) ∂Measure.pi (fun _ => expMeasure 1) := by
  have hr' : N.InRange (vals.set k y) := inRange_set hOK hr (List.getElem?_eq_getElem k.2) hy
  have hLc : Proper N ((k.val, y, a) :: L) := by
    intro c hc
    rcases List.mem_cons.1 hc with rfl | hc
    · exact ⟨vr N k, List.getElem?_eq_getElem k.2, hy, ha⟩
    · exact hL c hc
  have hm : MeasurableSet {ω | (r, ω) ∈ moveSet net N C ((k.val, y, a) :: L) vals D} :=
    measurable_prodMk_left (measurableSet_moveSet hD hOK C hLc hr D)
  unfold moveProb drawLaw
  rw [Clocks.infinitePi_first _ hm]
  let ψ : (Fin N.vars.length → ℝ) → ℝ≥0∞ := fun x => if (∀ w, w ≠ k → if w < k then x k < x w else x k ≤ x w) ∧ a < x k then
    moveProb net N C L (vals.set k y) (keeps N k) (fun w => x w - x k) else 0
  have hψ : Measurable ψ := by
    refine Measurable.ite ((measurableSet_firstAt k).inter (measurableSet_lt measurable_const (measurable_pi_apply k))) ?_ measurable_const
    exact (measurable_moveProb hD hOK C hL hr' _).comp (measurable_pi_lambda _ (fun w => by fun_prop))
  let T : Set U := {u | C.pick (N.weights vals (vr N k)) u = y}
  have hT : MeasurableSet T := C.meas _ _
  have hmem : ∀ ω₀ : (Fin N.vars.length → ℝ) × U,
      Measure.infinitePi (fun _ : ℕ => (Measure.pi (fun _ : Fin N.vars.length => expMeasure 1)).prod P)
        {ω | Clocks.consSeq (ω₀, ω) ∈ {ω | (r, ω) ∈ moveSet net N C ((k.val, y, a) :: L) vals D}}
      = ψ (mixTimes N vals D r ω₀.1) * T.indicator 1 ω₀.2 := by
    intro ω₀
    have hiff : ∀ ω, ω ∈ {ω | Clocks.consSeq (ω₀, ω) ∈ {ω | (r, ω) ∈ moveSet net N C ((k.val, y, a) :: L) vals D}} ↔ _ :=
      fun ω => mem_moveSet_cons hD hOK C hL hr D hy a r ω₀ ω
    by_cases h1 : FirstAt (mixTimes N vals D r ω₀.1) k ∧ a < mixTimes N vals D r ω₀.1 k
    · by_cases h2 : ω₀.2 ∈ T
      · rw [Set.indicator_of_mem h2, Pi.one_apply, mul_one]
        rw [show ψ (mixTimes N vals D r ω₀.1) = _ from if_pos h1]
        unfold moveProb drawLaw
        congr 1
        ext ω
        rw [hiff]
        exact ⟨fun h => h.2.2.2, fun h => ⟨h1.1, h1.2, h2, h⟩⟩
      · rw [Set.indicator_of_notMem h2, mul_zero]
        rw [Set.eq_empty_iff_forall_notMem.2 (fun ω h => h2 ((hiff ω).1 h).2.2.1), measure_empty]
    · rw [show ψ (mixTimes N vals D r ω₀.1) = _ from if_neg h1, zero_mul]
      rw [Set.eq_empty_iff_forall_notMem.2 (fun ω h => h1 ⟨((hiff ω).1 h).1, ((hiff ω).1 h).2.1⟩), measure_empty]
  rw [lintegral_congr hmem, lintegral_prod]
  · refine lintegral_congr (fun e => ?_)
    have : ∫⁻ u, ψ (mixTimes N vals D r e) * T.indicator 1 u ∂P = ψ (mixTimes N vals D r e) * P T := by
      rw [lintegral_const_mul _ (measurable_one.indicator hT), lintegral_indicator_one hT]
    rw [this, mul_comm]
    simp only [ψ]
    rw [mul_ite, mul_zero]
    rfl
  · exact ((hψ.comp (measurable_mixTimes vals D measurable_const measurable_fst)).mul
      ((measurable_one.indicator hT).comp measurable_snd)).aemeasurable

omit hD hOK [IsProbabilityMeasure P] in
theorem weights_sum (vals : List Nat) (v : Label) : (((N.weights vals v).sum : ℚ) : ℝ) = N.outRate vals v := by
  unfold Spec.Ctbn.weights Ctbn.outRate Ctbn.rates
  rw [Rat.cast_list_sum, List.map_map]
  congr 1
  refine List.map_congr_left (fun y _ => ?_)
  simp only [Function.comp]
  split_ifs <;> simp

omit hD hOK [IsProbabilityMeasure P] in
theorem weights_at (vals : List Nat) {v : Label} {y : Nat} (hy : y < N.card v) : ((((N.weights vals v)[y]?).getD 0 : ℚ) : ℝ) = N.rates vals v y := by
  unfold Spec.Ctbn.weights Ctbn.rates
  rw [List.getElem?_map, List.getElem?_range hy]
  simp only [Option.map_some, Option.getD_some]
  split_ifs <;> simp

omit hD hOK [IsProbabilityMeasure P] in
theorem list_sum_fin (f : Label → ℝ) : (N.vars.map f).sum = ∑ i : Fin N.vars.length, f (vr N i) := by
  rw [← Fin.sum_univ_fun_getElem]; rfl

theorem totalRate_inverse {vals : List Nat} (hr : N.InRange vals) :
    totalRate N N.inverseRates vals = ∑ i : Fin N.vars.length, 1 / (N.exitRate vals (vr N i) : ℝ) := by
  unfold totalRate
  rw [← list_sum_fin (fun v => 1 / (N.exitRate vals v : ℝ))]
  congr 1
  refine List.map_congr_left (fun v hv => ?_)
  unfold Ctbn.inverseRates
  have : N.outRate vals v ≠ 0 := by
    rw [← weights_sum]
    exact_mod_cast (weights_pos hD hOK hr hv).ne'
  rw [List.sum_map_mul_left]
  have h2 : ((List.range (N.card v)).map (fun y => N.rates vals v y / N.outRate vals v)).sum = 1 := by
    simp only [div_eq_mul_inv]
    rw [List.sum_map_mul_right]
    exact mul_inv_cancel₀ this
  rw [h2, mul_one]

theorem moveProb_dep {L : List MoveEvent} (hL : Proper N L) {vals : List Nat} (hr : N.InRange vals) (D : Fin N.vars.length → Prop) [DecidablePred D]
    (r r' : Fin N.vars.length → ℝ) (h : ∀ w, D w → r w = r' w) : moveProb net N C L vals D r = moveProb net N C L vals D r' := by
  have : clockAt N vals D r 0 = clockAt N vals D r' 0 := by
    unfold clockAt
    congr 2
    funext i
    split_ifs with hi
    · rw [h i hi]
    · rfl
  unfold moveProb moveSet
  simp only [Set.mem_setOf_eq, this]

/-- The law of the first moves. -/
theorem lintegral_moveProb (hpos : N.Leaves) {L : List MoveEvent} (hL : Proper N L) : ∀ {vals : List Nat}, N.InRange vals →
    ∀ (D : Fin N.vars.length → Prop) [DecidablePred D],
    ∫⁻ r, moveProb net N C L vals D r ∂Measure.pi (fun w => expMeasure (1 / (N.exitRate vals (vr N w) : ℝ)))
      = ENNReal.ofReal (jumpLaw N N.inverseRates L vals) := by
  have hq : ∀ {vals : List Nat}, N.InRange vals → ∀ w, (0 : ℝ) < N.exitRate vals (vr N w) := fun hr w => by
    exact_mod_cast hpos _ hr _ (List.getElem_mem _)
  have hprob : ∀ {vals : List Nat}, N.InRange vals → ∀ w, IsProbabilityMeasure (expMeasure (1 / (N.exitRate vals (vr N w) : ℝ))) :=
    fun hr w => isProbabilityMeasure_expMeasure (one_div_pos.2 (hq hr w))
  induction L with
  | nil =>
    intro vals hr D _
    have := hprob hr
    have h1 : ∀ r, moveProb net N C [] vals D r = 1 := by
      intro r
      unfold moveProb moveSet
      have : {ω | (r, ω) ∈ {p : (Fin N.vars.length → ℝ) × (ℕ → (Fin N.vars.length → ℝ) × U) |
          MovesAre (net.movesR ([] : List MoveEvent).length (drawsAt C p.2) (clockAt N vals D p.1 0)) []}} = Set.univ := by
        ext p
        simp only [List.length_nil, SampleNet.movesR, Set.mem_setOf_eq, Set.mem_univ, iff_true]
        exact ⟨[], rfl, .nil⟩
      rw [this, measure_univ]
    simp only [h1, lintegral_const, measure_univ, mul_one, jumpLaw, ENNReal.ofReal_one]
  | cons c L ih =>
    intro vals hr D _
    have := hprob hr
    obtain ⟨k, y, a⟩ := c
    obtain ⟨v, hv, hy, ha⟩ := hL _ List.mem_cons_self
    obtain ⟨hk, rfl⟩ := List.getElem?_eq_some_iff.1 hv
    have hr' : N.InRange (vals.set k y) := inRange_set hOK hr hv hy
    have := hprob hr'
    have hL' : Proper N L := fun c hc => hL c (List.mem_cons_of_mem _ hc)
    let kk : Fin N.vars.length := ⟨k, hk⟩
    have hy' : y < N.card (vr N kk) := hy
    have hv' : N.vars[k]? = some (vr N kk) := hv
    let c : ℝ≥0∞ := P {u | C.pick (N.weights vals (vr N kk)) u = y}
    let g : (Fin N.vars.length → ℝ) → ℝ≥0∞ := fun x => c * moveProb net N C L (vals.set k y) (keeps N kk) x
    have hg : Measurable g := (measurable_moveProb hD hOK C hL' hr' _).const_mul _
    have e1 : ∀ r, moveProb net N C ((k, y, a) :: L) vals D r = _ := fun r => moveProb_cons hD hOK C hL' hr D (k := kk) hy ha r
    let H : (Fin N.vars.length → ℝ) → ℝ≥0∞ := fun x => if (∀ w, w ≠ kk → if w < kk then x kk < x w else x kk ≤ x w) ∧ a < x kk then
        g (fun w => x w - x kk) else 0
    have hH : Measurable H := by
      refine Measurable.ite ((measurableSet_firstAt kk).inter (measurableSet_lt measurable_const (measurable_pi_apply kk))) ?_ measurable_const
      exact hg.comp (measurable_pi_lambda _ (fun w => by fun_prop))
    have e4 := Clocks.lintegral_mix (fun w => expMeasure (1 / (N.exitRate vals (vr N w) : ℝ))) (fun _ => expMeasure 1) D
      (fun w x => (N.exitRate vals (vr N w) : ℝ) * x) (fun w => by fun_prop) H hH
    refine (lintegral_congr e1).trans (e4.trans ?_)
    · have e2 : (fun w => if D w then expMeasure (1 / (N.exitRate vals (vr N w) : ℝ)) else (expMeasure 1).map (fun x => (N.exitRate vals (vr N w) : ℝ) * x))
          = fun w => expMeasure (1 / (N.exitRate vals (vr N w) : ℝ)) := by
        funext w
        rw [Clocks.exp_scale (hq hr w), ite_self]
      rw [e2]
      have hcomp := Clocks.competing (fun w => 1 / (N.exitRate vals (vr N w) : ℝ)) (fun w => one_div_pos.2 (hq hr w)) kk ha (fun w => w < kk) g hg
        (fun x y' h => by
          simp only [g]
          rw [moveProb_dep hD hOK C hL' hr' _ x y' (fun w hw => h w hw.1)])
      refine Eq.trans (lintegral_congr (fun x => ?_)) (hcomp.trans ?_)
      · simp only [H]
        congr
      have e3 : ∫⁻ x, g x ∂Measure.pi (fun w => expMeasure (1 / (N.exitRate vals (vr N w) : ℝ)))
          = ∫⁻ x, g x ∂Measure.pi (fun w => expMeasure (1 / (N.exitRate (vals.set k y) (vr N w) : ℝ))) := by
        refine Clocks.lintegral_agree _ _ (keeps N kk) (fun w hw => ?_) g hg (fun x y' h => ?_)
        · have : N.exitRate vals (vr N w) = N.exitRate (vals.set k y) (vr N w) := by
            apply familyAgrees_exitRate
            have hst : ∀ p ∈ N.vars, p ≠ vr N kk → N.state vals p = N.state (vals.set k y) p := by
              intro p hp hne
              rw [state_set hOK hr.1 hv' y hp, if_neg hne]
            refine ⟨hst _ (List.getElem_mem _) ?_, fun p hp => hst p (hOK.closed _ (List.getElem_mem _) p hp) ?_⟩
            · intro e
              have := List.nodup_iff_injective_get.1 hOK.nodup e
              exact hw.1 (Fin.ext (Fin.ext_iff.1 this))
            · rintro rfl; exact hw.2 hp
          rw [this]
        · simp only [g]
          rw [moveProb_dep hD hOK C hL' hr' _ x y' h]
      rw [e3]
      simp only [g]
      rw [lintegral_const_mul _ (measurable_moveProb hD hOK C hL' hr' _), ih hL' hr' (keeps N kk)]
      have hvk : vr N kk ∈ N.vars := List.getElem_mem _
      have hc : c = ENNReal.ofReal (N.rates vals (vr N kk) y / N.outRate vals (vr N kk)) := by
        simp only [c]
        rw [C.law _ (weights_nonneg hD hOK hr hvk) (weights_pos hD hOK hr hvk) y, Rat.cast_div, weights_sum, weights_at vals hy']
      rw [hc]
      have hrn : 0 ≤ N.rates vals (vr N kk) y / N.outRate vals (vr N kk) := by
        rw [← weights_sum, ← weights_at vals hy']
        have h1 := (weights_pos hD hOK hr hvk).le
        have h2 : 0 ≤ ((N.weights vals (vr N kk))[y]?).getD 0 := by
          cases hw : (N.weights vals (vr N kk))[y]? with
          | none => simp
          | some x => exact weights_nonneg hD hOK hr hvk x (List.mem_of_getElem? hw)
        exact_mod_cast div_nonneg h2 h1
      have hp1 : 0 ≤ 1 / (N.exitRate vals (vr N kk) : ℝ) / (∑ w : Fin N.vars.length, 1 / (N.exitRate vals (vr N w) : ℝ)) *
          Real.exp (-((∑ w : Fin N.vars.length, 1 / (N.exitRate vals (vr N w) : ℝ)) * a)) := by
        have h1 : 0 ≤ ∑ w : Fin N.vars.length, 1 / (N.exitRate vals (vr N w) : ℝ) := Finset.sum_nonneg (fun w _ => (one_div_pos.2 (hq hr w)).le)
        have h2 := hq hr kk
        positivity
      rw [← mul_assoc, ← ENNReal.ofReal_mul hp1, ← ENNReal.ofReal_mul (mul_nonneg hp1 hrn)]
      congr 1
      rw [jumpLaw]
      rw [totalRate_inverse hD hOK hr]
      have : N.vars.getD k "" = vr N kk := by simp [List.getD_eq_getElem?_getD, hv, vr, kk]
      rw [this, Ctbn.inverseRates]
      ring

end

end

end PyCTBN
