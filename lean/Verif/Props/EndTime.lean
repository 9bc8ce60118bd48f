import Verif.Props.SampleStop

/-!
# The long run of trajectories sampled up to an end time: C201, C202, C203
-/

open MeasureTheory ProbabilityTheory Filter
open scoped ENNReal Topology

namespace PyCTBN
open Spec JumpPaths

noncomputable section

/-! ## Prefixes of a list of moves -/

/-- The time after a list of moves from time `t`. -/
def clockAfter (t : ℝ) (ms : List Move) : ℝ := t + (ms.map Move.hold).sum

theorem clockAfter_cons (t : ℝ) (m : Move) (ms : List Move) : clockAfter t (m :: ms) = clockAfter (t + m.hold) ms := by
  unfold clockAfter; simp [add_assoc]

theorem clockAfter_append (t : ℝ) (a b : List Move) : clockAfter t (a ++ b) = clockAfter (clockAfter t a) b := by
  unfold clockAfter; simp [add_assoc]

theorem clockAfter_le {t : ℝ} {ms : List Move} (h : ∀ m ∈ ms, 0 ≤ m.hold) : t ≤ clockAfter t ms := by
  unfold clockAfter
  have : 0 ≤ (ms.map Move.hold).sum := List.sum_nonneg (by simpa using h)
  linarith

theorem movesBefore_prefix (T : ℝ) (ms : List Move) : ∀ t, movesBefore T t ms <+: ms := by
  induction ms with
  | nil => intro t; simp [movesBefore]
  | cons m ms ih =>
    intro t
    rw [movesBefore]
    split_ifs
    · exact List.nil_prefix
    · exact List.cons_prefix_cons.2 ⟨rfl, ih _⟩

theorem movesBefore_stops {T : ℝ} (ms : List Move) : ∀ {t}, t < T → T ≤ clockAfter t ms → (movesBefore T t ms).length < ms.length := by
  induction ms with
  | nil => intro t h1 h2; simp [clockAfter] at h2; linarith
  | cons m ms ih =>
    intro t h1 h2
    rw [movesBefore]
    split_ifs with h
    · simp
    · rw [clockAfter_cons] at h2
      simpa using ih (not_le.1 h) h2

theorem prefix_movesBefore {T : ℝ} (a b : List Move) : ∀ {t}, (∀ m ∈ a, 0 ≤ m.hold) → clockAfter t a < T → a <+: movesBefore T t (a ++ b) := by
  induction a with
  | nil => intros; exact List.nil_prefix
  | cons m a ih =>
    intro t h0 h
    rw [clockAfter_cons] at h
    rw [List.cons_append, movesBefore, if_neg]
    · exact List.cons_prefix_cons.2 ⟨rfl, ih (fun m' hm => h0 m' (by simp [hm])) h⟩
    · rw [not_le]
      exact (clockAfter_le (fun m' hm => h0 m' (by simp [hm]))).trans_lt h

theorem movesR_take {net : SampleNet} {n : Nat} : ∀ {k : Nat} {d : Nat → PassDraws} {s : ClockState} {ms : List Move}, net.movesR n d s = .ok ms → k ≤ n →
    net.movesR k d s = .ok (ms.take k) := by
  induction n with
  | zero =>
    intro k d s ms h hk
    obtain rfl : k = 0 := by omega
    simp [SampleNet.movesR]
  | succ n ih =>
    intro k d s ms h hk
    cases k with
    | zero => simp [SampleNet.movesR]
    | succ k =>
      rw [SampleNet.movesR] at h ⊢
      cases h1 : net.passR (d 0) s with
      | error e => rw [h1] at h; cases h
      | ok p =>
        rw [h1] at h
        simp only [Except.bind_ok'] at h ⊢
        cases h2 : net.movesR n (fun j => d (j + 1)) p.2 with
        | error e => rw [h2] at h; cases h
        | ok ms' =>
          rw [h2] at h
          simp only [Except.bind_ok', Except.pure_eq_ok', Except.ok.injEq] at h
          subst h
          rw [ih h2 (by omega)]
          simp

/-- The joint state after a list of moves. -/
def statesAfter (vals : List Nat) (ms : List Move) : List Nat := ms.foldl (fun v m => v.set m.var m.target) vals

theorem listTotal_append (e : Increment) (a b : List Move) : ∀ vals t, listTotal e vals t (a ++ b) = listTotal e vals t a + listTotal e (statesAfter vals a) (clockAfter t a) b := by
  induction a with
  | nil => intro vals t; simp [listTotal, statesAfter, clockAfter]
  | cons m a ih =>
    intro vals t
    rw [List.cons_append, listTotal, listTotal, ih, clockAfter_cons, add_assoc]
    rfl

theorem listTotal_bounded {b : List Nat → Step → ℝ} {w : List Nat → ℝ} {A : ℝ} (hb : ∀ vals s, |b vals s| ≤ A) (hw : ∀ vals, |w vals| ≤ A) (ms : List Move) :
    ∀ {vals : List Nat} {t : ℝ}, (∀ m ∈ ms, 0 ≤ m.hold) → |listTotal (linStep b w) vals t ms| ≤ A * (ms.length + ((round4R (clockAfter t ms) : ℝ) - round4R t)) := by
  induction ms with
  | nil => intro vals t _; simp [listTotal, clockAfter]
  | cons m ms ih =>
    intro vals t h0
    have i1 := ih (vals := vals.set m.var m.target) (t := t + m.hold) (fun m' hm => h0 m' (by simp [hm]))
    have hm := h0 m (by simp)
    have hle : (round4R t : ℝ) ≤ round4R (t + m.hold) := by exact_mod_cast round4R_mono (by linarith)
    rw [listTotal, clockAfter_cons]
    refine (abs_add_le _ _).trans ?_
    have h1 : |linStep b w vals t ⟨m.var, m.target⟩ m.hold| ≤ A * (1 + ((round4R (t + m.hold) : ℝ) - round4R t)) := by
      unfold linStep
      refine (abs_add_le _ _).trans ?_
      rw [abs_mul, abs_of_nonneg (sub_nonneg.2 hle), mul_add, mul_one]
      exact add_le_add (hb _ _) (mul_le_mul_of_nonneg_right (hw _) (sub_nonneg.2 hle))
    rw [List.length_cons]
    push_cast
    nlinarith

theorem listTotal_clock (ms : List Move) : ∀ vals t, listTotal (linStep (fun _ _ => 0) (fun _ => 1)) vals t ms = round4R (clockAfter t ms) - round4R t := by
  induction ms with
  | nil => intros; simp [listTotal, clockAfter]
  | cons m ms ih =>
    intro vals t
    rw [listTotal, ih, clockAfter_cons]
    simp only [linStep]
    ring

theorem round4R_zero : round4R 0 = 0 := by
  have h := round4R_cast 0
  rw [Rat.cast_zero] at h
  rw [h]
  exact (by decide +kernel : round4 0 = 0)

theorem round4R_near (x : ℝ) : |(round4R x : ℝ) - x| ≤ 1 / 20000 := abs_roundError_le x

/-! ## The random trajectory -/

section
variable {U : Type} [MeasurableSpace U] {P : Measure U}

open Classical in
/-- The moves `CTBN_Sample(t_end = T)` makes, as a random variable (none if it does not end). -/
def endMoves (net : SampleNet) {m : Nat} (C : Categorical U P) (T : ℝ) (ω : ℕ → (Fin m → ℝ) × U) : List Move :=
  if h : ∃ ms fuel, net.runR T (-1) fuel 0 (drawsAt C ω) net.initClock = .ok ms then h.choose else []

open Classical in
/-- The rows `CTBN_Sample(t_end = T)` returns, as a random variable (none if it does not end). -/
def endRows (net : SampleNet) {m : Nat} (C : Categorical U P) (T : ℝ) (ω : ℕ → (Fin m → ℝ) × U) : RawTraj :=
  if h : ∃ rows fuel, net.sampleStopR T (-1) (drawsAt C ω) fuel = .ok rows then h.choose else []

variable {net : SampleNet} {m : Nat} (C : Categorical U P)

theorem endMoves_eq {T : ℝ} {ω : ℕ → (Fin m → ℝ) × U} {fuel : Nat} {ms : List Move} (h : net.runR T (-1) fuel 0 (drawsAt C ω) net.initClock = .ok ms) :
    endMoves net C T ω = ms := by
  have hex : ∃ ms fuel, net.runR T (-1) fuel 0 (drawsAt C ω) net.initClock = .ok ms := ⟨ms, fuel, h⟩
  unfold endMoves
  rw [dif_pos hex]
  obtain ⟨fuel', h'⟩ := hex.choose_spec
  have e1 := runR_mono h (max fuel fuel') (le_max_left _ _)
  have e2 := runR_mono h' (max fuel fuel') (le_max_right _ _)
  rw [e1] at e2
  exact (Except.ok.inj e2).symm

theorem sampleStopR_ok {T : ℝ} {ω : ℕ → (Fin m → ℝ) × U} {fuel : Nat} {rows : RawTraj} : net.sampleStopR T (-1) (drawsAt C ω) fuel = .ok rows ↔
    ∃ ms, net.runR T (-1) fuel 0 (drawsAt C ω) net.initClock = .ok ms ∧ rows = SampleNet.terminate (SampleNet.rowsOfMoves 0 (net.vnames.map (fun _ => 0)) ms) := by
  unfold SampleNet.sampleStopR
  cases net.runR T (-1) fuel 0 (drawsAt C ω) net.initClock with
  | error e => simp
  | ok ms => simp [eq_comm]

/-- Whatever the number of passes, if the function has returned, these are its rows. -/
theorem endRows_eq {T : ℝ} {ω : ℕ → (Fin m → ℝ) × U} {fuel : Nat} {rows : RawTraj} (h : net.sampleStopR T (-1) (drawsAt C ω) fuel = .ok rows) :
    endRows net C T ω = rows := by
  have hex : ∃ rows fuel, net.sampleStopR T (-1) (drawsAt C ω) fuel = .ok rows := ⟨rows, fuel, h⟩
  unfold endRows
  rw [dif_pos hex]
  obtain ⟨fuel', h'⟩ := hex.choose_spec
  obtain ⟨ms, h1, rfl⟩ := (sampleStopR_ok C).1 h
  obtain ⟨ms', h2, h3⟩ := (sampleStopR_ok C).1 h'
  rw [h3, ← endMoves_eq C h1, ← endMoves_eq C h2]

theorem endRows_cases (T : ℝ) (ω : ℕ → (Fin m → ℝ) × U) :
    endRows net C T ω = SampleNet.terminate (SampleNet.rowsOfMoves 0 (net.vnames.map (fun _ => 0)) (endMoves net C T ω)) ∨
    (endRows net C T ω = [] ∧ endMoves net C T ω = []) := by
  by_cases hex : ∃ ms fuel, net.runR T (-1) fuel 0 (drawsAt C ω) net.initClock = .ok ms
  · obtain ⟨ms, fuel, h⟩ := hex
    left
    rw [endRows_eq C ((sampleStopR_ok C).2 ⟨ms, h, rfl⟩), endMoves_eq C h]
  · right
    constructor
    · unfold endRows
      rw [dif_neg]
      rintro ⟨rows, fuel, h⟩
      obtain ⟨ms, h1, -⟩ := (sampleStopR_ok C).1 h
      exact hex ⟨ms, fuel, h1⟩
    · unfold endMoves
      rw [dif_neg hex]

end

section
variable {net : SampleNet} {N : Ctbn} (hD : Describes net N) (hOK : N.OK)
include hD hOK
variable {U : Type} [MeasurableSpace U] {P : Measure U} [IsProbabilityMeasure P] (C : Categorical U P)

/-- The clock after `n` moves is about `n` over the stationary pace. -/
theorem clock_deviation (hc : N.Conservative) (hirr : N.Irreducible) {π : List Nat → ℝ} (hπ : Stationary N N.inverseRates π) :
    ∃ B, 0 ≤ B ∧ ∀ (n : Nat) {δ : ℝ}, 0 < δ → drawLaw N.vars.length P {ω |
      δ ≤ |(round4R (clockAfter 0 (sampledMoves net C n ω)) : ℝ) - n / pace N N.inverseRates π|} ≤ ENNReal.ofReal (B * n / δ ^ 2) := by
  have hU := usable_inverse hD hOK (leaves_of_conservative hD hOK hc)
  have hp := (pace_pos hOK hU hπ).ne'
  obtain ⟨B, hB, h⟩ := sampled_total_deviation hD hOK C hc hirr hπ (fun _ _ => 0) (fun _ => 1) (c := 1 / pace N N.inverseRates π) (by
    rw [div_mul_cancel₀ _ hp]
    simpa using hπ.one)
  refine ⟨B, hB, fun n δ hδ => ?_⟩
  have := h n hδ
  simp only [listTotal_clock, round4R_zero, Rat.cast_zero, sub_zero, mul_one_div] at this
  exact this

/-- What happens on a good event: if the clock is before `T` after `a` moves and not before after `b`, the moves made up to `T` begin with the first `a` and are among the first `b`. -/
theorem endMoves_between {T : ℝ} (hT : 0 < T) {a b : Nat} (hab : a ≤ b) {ω : ℕ → (Fin N.vars.length → ℝ) × U} {ms : List Move}
    (h1 : net.movesR b (drawsAt C ω) net.initClock = .ok ms) (h0 : ∀ m ∈ ms, 0 ≤ m.hold) (ha : clockAfter 0 (sampledMoves net C a ω) < T)
    (hb : T ≤ clockAfter 0 (sampledMoves net C b ω)) :
    (∃ fuel, net.runR T (-1) fuel 0 (drawsAt C ω) net.initClock = .ok (endMoves net C T ω)) ∧
      sampledMoves net C a ω <+: endMoves net C T ω ∧ endMoves net C T ω <+: sampledMoves net C b ω ∧ sampledMoves net C b ω = ms := by
  have e1 : sampledMoves net C b ω = ms := by unfold sampledMoves movesOf; rw [h1]
  have e2 : sampledMoves net C a ω = ms.take a := by unfold sampledMoves movesOf; rw [movesR_take h1 hab]
  have hrun := runR_of_moves (T := T) (by linarith) 0 h1 (movesBefore_stops ms hT (by rw [← e1]; exact hb)) b le_rfl
  have e3 := endMoves_eq C hrun
  refine ⟨⟨b, by rw [e3]; exact hrun⟩, ?_, ?_, e1⟩
  · rw [e3, e2]
    conv_rhs => rw [← List.take_append_drop a ms]
    exact prefix_movesBefore _ _ (fun m hm => h0 m (List.mem_of_mem_take hm)) (by rw [← e2]; exact ha)
  · rw [e3, e1]
    exact movesBefore_prefix _ _ _

omit hD hOK [IsProbabilityMeasure P] in
theorem end_arithmetic {p θ δ T Bx Bh v a e : ℝ} (hp : 0 < p) (hθ : 0 < θ) (hδ : 0 < δ) (hT : 0 < T) (hBx : 0 ≤ Bx) (hBh : 0 ≤ Bh) (hv : v = θ * δ) (ha0 : 0 ≤ a) (he0 : 0 ≤ e)
    (ha : a ≤ p * T) (he : e ≤ (p + 2) * T) (D : ℝ) :
    Bx * a / (δ / 4) ^ 2 + (Bh * a / (v / (2 * p)) ^ 2 + Bh * e / (v / (2 * p)) ^ 2)
      ≤ (D ^ 2 + 16 * Bx * p + 4 * p ^ 3 * Bh / θ ^ 2 + 4 * p ^ 2 * (p + 2) * Bh / θ ^ 2) * T / δ ^ 2 := by
  have e1 : Bx * a / (δ / 4) ^ 2 = 16 * Bx / δ ^ 2 * a := by field_simp; ring
  have e2 : ∀ n, Bh * n / (v / (2 * p)) ^ 2 = 4 * p ^ 2 * Bh / θ ^ 2 / δ ^ 2 * n := by intro n; rw [hv]; field_simp; ring
  rw [e1, e2, e2]
  have q1 := mul_le_mul_of_nonneg_left ha (show 0 ≤ 16 * Bx / δ ^ 2 by positivity)
  have q2 := mul_le_mul_of_nonneg_left ha (show 0 ≤ 4 * p ^ 2 * Bh / θ ^ 2 / δ ^ 2 by positivity)
  have q3 := mul_le_mul_of_nonneg_left he (show 0 ≤ 4 * p ^ 2 * Bh / θ ^ 2 / δ ^ 2 by positivity)
  have q0 : 0 ≤ D ^ 2 * T / δ ^ 2 := by positivity
  have e3 : (D ^ 2 + 16 * Bx * p + 4 * p ^ 3 * Bh / θ ^ 2 + 4 * p ^ 2 * (p + 2) * Bh / θ ^ 2) * T / δ ^ 2
      = D ^ 2 * T / δ ^ 2 + 16 * Bx / δ ^ 2 * (p * T) + 4 * p ^ 2 * Bh / θ ^ 2 / δ ^ 2 * (p * T) + 4 * p ^ 2 * Bh / θ ^ 2 / δ ^ 2 * ((p + 2) * T) := by
    field_simp
  rw [e3]
  linarith

set_option maxHeartbeats 400000 in
/-- The sums over the moves made up to `T` deviate from `T` times their stationary mean by no more than the order of the square root of `T`. -/
theorem end_total_deviation (hc : N.Conservative) (hirr : N.Irreducible) {π : List Nat → ℝ} (hπ : Stationary N N.inverseRates π)
    {b : List Nat → Step → ℝ} {w : List Nat → ℝ} {A : ℝ} (hA : 0 ≤ A) (hb : ∀ vals s, |b vals s| ≤ A) (hw : ∀ vals, |w vals| ≤ A) {c : ℝ}
    (hval : ∑ a ∈ N.joint, π a * (∑ s ∈ steps N, N.inverseRates a (N.vars.getD s.1 "") s.2 * b a s + w a) = c) :
    ∃ B, 0 ≤ B ∧ ∀ {T δ : ℝ}, 1 ≤ T → 0 < δ → δ ≤ T → drawLaw N.vars.length P {ω |
      δ ≤ |listTotal (linStep b w) (N.vars.map (fun _ => 0)) 0 (endMoves net C T ω) - T * c|} ≤ ENNReal.ofReal (B * T / δ ^ 2) := by
  have hpos := leaves_of_conservative hD hOK hc
  have hU := usable_inverse hD hOK hpos
  have hp := pace_pos hOK hU hπ
  set p := pace N N.inverseRates π with hpdef
  obtain ⟨Bx, hBx, hX⟩ := sampled_total_deviation hD hOK C hc hirr hπ b w (c := c / p) (by rw [hval, div_mul_cancel₀ _ hp.ne'])
  obtain ⟨Bh, hBh, hH⟩ := clock_deviation hD hOK C hc hirr hπ
  rw [← hpdef] at hH
  have hdraw : IsProbabilityMeasure (drawLaw N.vars.length P) := by unfold drawLaw; infer_instance
  set zeros := N.vars.map (fun _ => 0) with hz
  set X := listTotal (linStep b w) zeros 0 with hXdef
  set K := 1 + 2 * |c| / p + A * (4 + 5 / p) with hK
  have hK1 : 1 ≤ K := by
    have : 0 ≤ 2 * |c| / p := by positivity
    have : 0 ≤ A * (4 + 5 / p) := by positivity
    linarith
  have hKpos : 0 < K := by linarith
  set D := max 1 p * (4 * K) with hDdef
  have hDpos : 0 < D := by positivity
  set θ := 1 / (4 * K) with hθ
  have hθ0 : 0 < θ := by positivity
  have hθ1 : θ ≤ 1 := by
    rw [hθ, div_le_one (by positivity)]; linarith
  refine ⟨D ^ 2 + 16 * Bx * p + 4 * p ^ 3 * Bh / θ ^ 2 + 4 * p ^ 2 * (p + 2) * Bh / θ ^ 2, by positivity, fun {T δ} hT hδ hδT => ?_⟩
  have hT0 : 0 < T := by linarith
  rcases lt_or_ge δ D with hsmall | hlarge
  · refine prob_le_one.trans ?_
    rw [← ENNReal.ofReal_one]
    refine ENNReal.ofReal_le_ofReal ?_
    rw [le_div_iff₀ (by positivity), one_mul]
    have h1 : δ ^ 2 ≤ D ^ 2 := pow_le_pow_left₀ hδ.le hsmall.le 2
    have h2 : 0 ≤ 16 * Bx * p + 4 * p ^ 3 * Bh / θ ^ 2 + 4 * p ^ 2 * (p + 2) * Bh / θ ^ 2 := by positivity
    nlinarith [sq_nonneg D]
  set v := θ * δ with hv
  have hv0 : 0 < v := by positivity
  have hvmax : max 1 p ≤ v := by
    rw [hv, hθ, one_div, inv_mul_eq_div, le_div_iff₀ (by positivity)]
    exact hlarge
  have hv1 : 1 ≤ v := (le_max_left _ _).trans hvmax
  have hvp : p ≤ v := (le_max_right _ _).trans hvmax
  have hvT : v ≤ T := by
    rw [hv]
    nlinarith
  have hKv : K * v = δ / 4 := by
    rw [hv, hθ]; field_simp
  set a := ⌊p * T - v⌋₊ with ha
  set e := ⌈p * T + v⌉₊ with he
  have ha1 : (a : ℝ) ≤ p * T := by
    rcases le_or_gt 0 (p * T - v) with h | h
    · exact (Nat.floor_le h).trans (by linarith)
    · rw [ha, Nat.floor_of_nonpos h.le, Nat.cast_zero]; positivity
  have ha2 : p * T - v - 1 ≤ a := by
    have := Nat.lt_floor_add_one (p * T - v)
    linarith
  have ha3 : a = 0 ∨ (a : ℝ) ≤ p * T - v := by
    rcases le_or_gt 0 (p * T - v) with h | h
    · exact .inr (Nat.floor_le h)
    · exact .inl (Nat.floor_of_nonpos h.le)
  have he1 : p * T + v ≤ e := Nat.le_ceil _
  have he2 : (e : ℝ) ≤ p * T + v + 1 := (Nat.ceil_lt_add_one (by positivity)).le
  have hae : a ≤ e := by
    have : (a : ℝ) ≤ e := by linarith
    exact_mod_cast this
  have hvp0 : 0 < v / (2 * p) := by positivity
  -- outside three unlikely events
  have hsub : ∀ᵐ ω ∂drawLaw N.vars.length P, δ ≤ |X (endMoves net C T ω) - T * c| →
      δ / 4 ≤ |X (sampledMoves net C a ω) - a * (c / p)| ∨ v / (2 * p) ≤ |(round4R (clockAfter 0 (sampledMoves net C a ω)) : ℝ) - a / p| ∨
      v / (2 * p) ≤ |(round4R (clockAfter 0 (sampledMoves net C e ω)) : ℝ) - e / p| := by
    filter_upwards [sampled_moves_genuine hD hOK C hpos e] with ω ⟨ms, m1, m2, m3⟩ hδω
    by_contra hcon
    push Not at hcon
    obtain ⟨g1, g2, g3⟩ := hcon
    have h0 : ∀ m ∈ ms, 0 ≤ m.hold := fun m hm => by obtain ⟨-, -, -, h⟩ := m3 m hm; exact h.le
    have ra := abs_le.1 (round4R_near (clockAfter 0 (sampledMoves net C a ω)))
    have re := abs_le.1 (round4R_near (clockAfter 0 (sampledMoves net C e ω)))
    have g2' := abs_lt.1 g2
    have g3' := abs_lt.1 g3
    have hhalf : 1 / 2 ≤ v / (2 * p) := by
      rw [le_div_iff₀ (by positivity)]; linarith
    have hvv : v / p = v / (2 * p) + v / (2 * p) := by field_simp; ring
    have hbefore : clockAfter 0 (sampledMoves net C a ω) < T := by
      rcases ha3 with h | h
      · have : sampledMoves net C a ω = [] := by
          have := sampledMoves_length (net := net) C a ω
          rw [h] at this ⊢
          exact List.length_eq_zero_iff.1 (by omega)
        rw [this]
        simpa [clockAfter] using hT0
      · have : (a : ℝ) / p ≤ T - v / p := by
          rw [div_le_iff₀ hp, sub_mul, div_mul_cancel₀ _ hp.ne']
          linarith
        linarith
    have hafter : T ≤ clockAfter 0 (sampledMoves net C e ω) := by
      have : T + v / p ≤ (e : ℝ) / p := by
        rw [le_div_iff₀ hp, add_mul, div_mul_cancel₀ _ hp.ne']
        linarith
      linarith
    obtain ⟨-, ⟨r, hr⟩, ⟨r', hr'⟩, hms⟩ := endMoves_between hD hOK C hT0 hae m1 h0 hbefore hafter
    have hla : (sampledMoves net C a ω).length = a := by
      have : sampledMoves net C a ω = ms.take a := by unfold sampledMoves movesOf; rw [movesR_take m1 hae]
      rw [this, List.length_take, m2]
      exact min_eq_left hae
    have hle : (sampledMoves net C e ω).length = e := by rw [hms, m2]
    have hr0 : ∀ m ∈ r, 0 ≤ m.hold := fun m hm => h0 m (by rw [← hms, ← hr', ← hr]; simp [hm])
    have hr0' : ∀ m ∈ r', 0 ≤ m.hold := fun m hm => h0 m (by rw [← hms, ← hr']; simp [hm])
    have hXr : X (endMoves net C T ω) = X (sampledMoves net C a ω) + listTotal (linStep b w) (statesAfter zeros (sampledMoves net C a ω)) (clockAfter 0 (sampledMoves net C a ω)) r := by
      rw [← hr]
      exact listTotal_append _ _ _ _ _
    have hbd := listTotal_bounded hb hw r (vals := statesAfter zeros (sampledMoves net C a ω)) (t := clockAfter 0 (sampledMoves net C a ω)) hr0
    have hlen : (r.length : ℝ) ≤ e - a := by
      have h1 : (sampledMoves net C a ω).length + r.length + r'.length = e := by
        have k1 := congrArg List.length hr
        have k2 := congrArg List.length hr'
        simp only [List.length_append] at k1 k2
        omega
      have h2 : a + r.length ≤ e := by omega
      have h3 : (a : ℝ) + r.length ≤ e := by exact_mod_cast h2
      linarith
    have hclk : (round4R (clockAfter (clockAfter 0 (sampledMoves net C a ω)) r) : ℝ) ≤ round4R (clockAfter 0 (sampledMoves net C e ω)) := by
      rw [← clockAfter_append, hr]
      have : clockAfter 0 (endMoves net C T ω) ≤ clockAfter 0 (sampledMoves net C e ω) := by
        rw [← hr', clockAfter_append]
        exact clockAfter_le hr0'
      exact_mod_cast round4R_mono this
    have hHdiff : (round4R (clockAfter 0 (sampledMoves net C e ω)) : ℝ) - round4R (clockAfter 0 (sampledMoves net C a ω)) ≤ (3 * v + 2) / p := by
      have h1 : ((e : ℝ) - a) / p ≤ (2 * v + 2) / p := div_le_div_of_nonneg_right (by linarith) hp.le
      have h2 : (3 * v + 2) / p = (2 * v + 2) / p + v / p := by ring
      have h3 : ((e : ℝ) - a) / p = e / p - a / p := by ring
      rw [h2]
      linarith
    have hrest : |listTotal (linStep b w) (statesAfter zeros (sampledMoves net C a ω)) (clockAfter 0 (sampledMoves net C a ω)) r| ≤ A * (4 + 5 / p) * v := by
      refine hbd.trans ?_
      rw [mul_assoc]
      refine mul_le_mul_of_nonneg_left ?_ hA
      have h1 : (3 * v + 2) / p ≤ 5 / p * v := by
        rw [div_mul_eq_mul_div]
        exact div_le_div_of_nonneg_right (by linarith) hp.le
      nlinarith
    have hac : |(a : ℝ) * (c / p) - T * c| ≤ 2 * |c| / p * v := by
      have e1 : (a : ℝ) * (c / p) - T * c = c / p * (a - p * T) := by
        rw [mul_sub, ← mul_assoc, div_mul_cancel₀ _ hp.ne']; ring
      rw [e1, abs_mul, abs_div, abs_of_pos hp]
      have h1 : |(a : ℝ) - p * T| ≤ 2 * v := by rw [abs_le]; constructor <;> linarith
      calc |c| / p * |(a : ℝ) - p * T| ≤ |c| / p * (2 * v) := mul_le_mul_of_nonneg_left h1 (by positivity)
        _ = 2 * |c| / p * v := by ring
    have hfin : |X (endMoves net C T ω) - T * c| < δ / 4 + 2 * |c| / p * v + A * (4 + 5 / p) * v := by
      rw [hXr]
      have e1 : X (sampledMoves net C a ω) + listTotal (linStep b w) (statesAfter zeros (sampledMoves net C a ω)) (clockAfter 0 (sampledMoves net C a ω)) r - T * c
          = (X (sampledMoves net C a ω) - a * (c / p)) + (a * (c / p) - T * c)
            + listTotal (linStep b w) (statesAfter zeros (sampledMoves net C a ω)) (clockAfter 0 (sampledMoves net C a ω)) r := by ring
      rw [e1]
      have h1 := abs_add_le ((X (sampledMoves net C a ω) - a * (c / p)) + (a * (c / p) - T * c))
        (listTotal (linStep b w) (statesAfter zeros (sampledMoves net C a ω)) (clockAfter 0 (sampledMoves net C a ω)) r)
      have h2 := abs_add_le (X (sampledMoves net C a ω) - a * (c / p)) (a * (c / p) - T * c)
      linarith
    have hKle : 2 * |c| / p * v + A * (4 + 5 / p) * v ≤ δ / 4 := by
      have : K * v = v + 2 * |c| / p * v + A * (4 + 5 / p) * v := by rw [hK]; ring
      linarith
    linarith
  have hmeas : drawLaw N.vars.length P {ω | δ ≤ |X (endMoves net C T ω) - T * c|} ≤
      drawLaw N.vars.length P {ω | δ / 4 ≤ |X (sampledMoves net C a ω) - a * (c / p)|} +
      (drawLaw N.vars.length P {ω | v / (2 * p) ≤ |(round4R (clockAfter 0 (sampledMoves net C a ω)) : ℝ) - a / p|} +
      drawLaw N.vars.length P {ω | v / (2 * p) ≤ |(round4R (clockAfter 0 (sampledMoves net C e ω)) : ℝ) - e / p|}) := by
    refine (measure_mono_ae (hsub.mono (fun ω h => ?_))).trans ((measure_union_le _ _).trans (add_le_add le_rfl (measure_union_le _ _)))
    exact h
  refine hmeas.trans ((add_le_add (hX a (by positivity)) (add_le_add (hH a hvp0) (hH e hvp0))).trans ?_)
  rw [← ENNReal.ofReal_add (by positivity) (by positivity), ← ENNReal.ofReal_add (by positivity) (by positivity)]
  refine ENNReal.ofReal_le_ofReal ?_
  exact end_arithmetic hp hθ0 hδ hT0 hBx hBh hv (Nat.cast_nonneg a) (Nat.cast_nonneg e) ha1 (by nlinarith) D

end

end

end PyCTBN
