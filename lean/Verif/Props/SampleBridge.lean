import Verif.Props.SampleStats
import Verif.Props.EndToEnd

/-!
# The statistics of the rows of a sampled trajectory: C181, C182 (the connection with the rows)
-/

namespace PyCTBN
open Spec

noncomputable section

/-- A row of the frame as the estimators see it. -/
def castRow (r : ℚ × List Nat) : ℚ × List ℤ := (r.1, r.2.map (fun x : Nat => (x : ℤ)))

theorem terminate_single (a : ℚ × List Nat) : SampleNet.terminate [a] = [(a.1, a.2.map (fun _ => (-1 : ℤ)))] := rfl

theorem terminate_cons₂ (a b : ℚ × List Nat) (l : List (ℚ × List Nat)) :
    SampleNet.terminate (a :: b :: l) = castRow a :: SampleNet.terminate (b :: l) := by
  unfold SampleNet.terminate
  rw [List.dropLast_cons_cons, List.getLast?_cons_cons]
  rfl

theorem consecutive_cons₂ (a b : ℚ × List ℤ) (l : RawTraj) : consecutive (a :: b :: l) = (a, b) :: consecutive (b :: l) := rfl

section
variable {N : Ctbn} (hOK : N.OK)

theorem rawState_castRow {r : ℚ × List Nat} (hlen : r.2.length = N.vars.length) {w : Label} (hw : w ∈ N.vars) :
    rawState N.vars (castRow r) w = some ((N.state r.2 w : Nat) : ℤ) := by
  have hi : N.vars.idxOf w < r.2.length := by rw [hlen]; exact List.idxOf_lt_length_of_mem hw
  unfold rawState castRow Ctbn.state
  simp [List.getElem?_eq_getElem hi]

include hOK

theorem rawMatches_castRow {r : ℚ × List Nat} (hlen : r.2.length = N.vars.length) {v : Label} (hv : v ∈ N.vars) (x : Nat) (u : List Nat) :
    rawMatches N.vars v (N.parents v) x u (castRow r) = decide (InCase N v x u r.2) := by
  unfold rawMatches
  rw [rawState_castRow hlen hv]
  have e : (N.parents v).map (rawState N.vars (castRow r)) = (N.parentStates r.2 v).map (fun z : Nat => some (z : ℤ)) := by
    unfold Ctbn.parentStates
    rw [List.map_map]
    exact List.map_congr_left (fun p hp => rawState_castRow hlen (hOK.closed v hv p hp))
  rw [e, ← Bool.decide_and]
  refine decide_eq_decide.2 ?_
  unfold InCase
  refine and_congr (by simp) ?_
  constructor
  · intro h
    exact List.map_injective_iff.2 (fun a b hab => by simpa using hab) h
  · intro h; rw [h]

theorem moved_iff {vals : List Nat} (hlen : vals.length = N.vars.length) {v : Label} (hv : v ∈ N.vars) {x y : Nat} (hxy : y ≠ x) (hx : N.state vals v = x) (m : Move) :
    N.state (vals.set m.var m.target) v = y ↔ N.vars[m.var]? = some v ∧ m.target = y := by
  have hi : N.vars.idxOf v < vals.length := by rw [hlen]; exact List.idxOf_lt_length_of_mem hv
  have hget : N.vars[N.vars.idxOf v]? = some v := by
    rw [List.getElem?_eq_getElem (List.idxOf_lt_length_of_mem hv)]; simp
  by_cases hm : m.var = N.vars.idxOf v
  · have : N.state (vals.set m.var m.target) v = m.target := by
      unfold Ctbn.state
      rw [hm, List.getElem?_set_self hi]; rfl
    rw [this, hm]
    exact ⟨fun h => ⟨hget, h⟩, fun h => h.2⟩
  · have : N.state (vals.set m.var m.target) v = x := by
      rw [← hx]
      unfold Ctbn.state
      rw [List.getElem?_set_ne hm]
    rw [this]
    refine ⟨fun h => absurd h.symm hxy, fun h => absurd ?_ hm⟩
    exact (List.getElem?_inj (List.getElem?_eq_some_iff.1 h.1).1 hOK.nodup).1 (h.1.trans hget.symm)

theorem rows_statistics {v : Label} (hv : v ∈ N.vars) {x y : Nat} (hxy : y ≠ x) (u : List Nat) (ms : List Move) :
    ∀ {t : ℝ} {vals : List Nat} {rows : List (ℚ × List Nat)}, vals.length = N.vars.length → FramesMatch rows (movesFrames t vals ms) →
      rawTransitions N.vars [SampleNet.terminate rows] v (N.parents v) x y u = moveCount N v x y u vals ms.dropLast ∧
      |(rawResidence N.vars [SampleNet.terminate rows] v (N.parents v) x u : ℝ) - timeSpent N v x u vals ms| ≤ ms.length / 10000 := by
  induction ms with
  | nil =>
    intro t vals rows hlen h
    rw [movesFrames] at h
    obtain ⟨r, rs, h1, h2, rfl⟩ := List.forall₂_cons_right_iff.1 h
    rw [List.forall₂_nil_right_iff] at h2
    subst h2
    rw [terminate_single]
    simp [rawTransitions, rawResidence, consecutive, moveCount, timeSpent]
  | cons m ms ih =>
    intro t vals rows hlen h
    rw [movesFrames] at h
    obtain ⟨r, rows', h1, h2, rfl⟩ := List.forall₂_cons_right_iff.1 h
    have hlen' : (vals.set m.var m.target).length = N.vars.length := by rw [List.length_set]; exact hlen
    obtain ⟨i1, i2⟩ := ih hlen' h2
    obtain ⟨r', rs, hr', rfl⟩ : ∃ r' rs, (∃ τ : ℚ, (τ : ℝ) = t + m.hold ∧ r'.1 = round4 τ) ∧ rows' = r' :: rs := by
      cases ms with
      | nil =>
        rw [movesFrames] at h2
        obtain ⟨r', rs, g1, g2, rfl⟩ := List.forall₂_cons_right_iff.1 h2
        exact ⟨r', rs, g1.2, rfl⟩
      | cons m' ms =>
        rw [movesFrames] at h2
        obtain ⟨r', rs, g1, g2, rfl⟩ := List.forall₂_cons_right_iff.1 h2
        exact ⟨r', rs, g1.2, rfl⟩
    obtain ⟨hr2, τ, hτ, hrτ⟩ := h1
    obtain ⟨τ', hτ', hrτ'⟩ := hr'
    have hrl : r.2.length = N.vars.length := by rw [hr2]; exact hlen
    -- the first row of the rest
    obtain ⟨b, l, hbl, hb1⟩ : ∃ b l, SampleNet.terminate (r' :: rs) = b :: l ∧ b.1 = r'.1 := by
      cases rs with
      | nil => exact ⟨_, _, terminate_single r', rfl⟩
      | cons r'' rs => exact ⟨_, _, terminate_cons₂ r' r'' rs, rfl⟩
    have hcons : ([SampleNet.terminate (r :: r' :: rs)]).flatMap consecutive = (castRow r, b) :: ([SampleNet.terminate (r' :: rs)]).flatMap consecutive := by
      rw [terminate_cons₂, hbl]
      simp [consecutive_cons₂]
    have hmatch := rawMatches_castRow hOK hrl hv x u
    rw [hr2] at hmatch
    constructor
    · unfold rawTransitions at i1 ⊢
      rw [hcons, List.filter_cons]
      dsimp only
      rw [hmatch]
      cases ms with
      | nil =>
        have hrs : rs = [] := by
          rw [movesFrames] at h2
          obtain ⟨-, h2⟩ := List.forall₂_cons.1 h2
          exact List.forall₂_nil_right_iff.1 h2
        subst hrs
        rw [terminate_single, List.cons.injEq] at hbl
        have hbs : rawState N.vars b v ≠ some (y : ℤ) := by
          rw [← hbl.1]
          unfold rawState
          intro hh
          simp only [List.getElem?_map, Option.map_eq_some_iff] at hh
          obtain ⟨z, -, hz⟩ := hh
          omega
        rw [if_neg (by simp [hbs]), i1]
        simp [moveCount]
      | cons m' ms =>
        obtain ⟨r'', rs', rfl⟩ : ∃ r'' rs', rs = r'' :: rs' := by
          rw [movesFrames] at h2
          obtain ⟨-, h2⟩ := List.forall₂_cons.1 h2
          cases ms with
          | nil => rw [movesFrames] at h2; obtain ⟨a, l, -, -, rfl⟩ := List.forall₂_cons_right_iff.1 h2; exact ⟨a, l, rfl⟩
          | cons _ _ => rw [movesFrames] at h2; obtain ⟨a, l, -, -, rfl⟩ := List.forall₂_cons_right_iff.1 h2; exact ⟨a, l, rfl⟩
        rw [terminate_cons₂, List.cons.injEq] at hbl
        have hr'2 : r'.2 = vals.set m.var m.target := by
          rw [movesFrames] at h2
          exact (List.forall₂_cons.1 h2).1.1
        have hbs : rawState N.vars b v = some ((N.state (vals.set m.var m.target) v : Nat) : ℤ) := by
          rw [← hbl.1, rawState_castRow (by rw [hr'2]; exact hlen') hv, hr'2]
        rw [hbs, List.dropLast_cons_cons, moveCount, ← i1]
        by_cases hcase : InCase N v x u vals
        · have hiff := moved_iff hOK hlen hv hxy hcase.1 m
          by_cases hmv : N.vars[m.var]? = some v ∧ m.target = y
          · rw [if_pos (by simp [hcase, hiff.2 hmv]), if_pos ⟨hcase, hmv⟩, List.length_cons]
            omega
          · have : N.state (vals.set m.var m.target) v ≠ y := fun hh => hmv (hiff.1 hh)
            rw [if_neg (by simp [this]), if_neg (fun hh => hmv hh.2)]
            omega
        · rw [if_neg (by simp [hcase]), if_neg (fun hh => hcase hh.1)]
          omega
    · unfold rawResidence at i2 ⊢
      rw [hcons, List.filter_cons]
      dsimp only
      rw [hmatch, timeSpent]
      have near : ∀ q : ℚ, (-(1 / 20000) : ℝ) ≤ (round4 q : ℝ) - q ∧ (round4 q : ℝ) - q ≤ 1 / 20000 := by
        intro q
        have n := round4_near q
        have n' : |(round4 q : ℝ) - q| ≤ 1 / 20000 := by
          have : ((|round4 q - q| : ℚ) : ℝ) ≤ ((1 / 20000 : ℚ) : ℝ) := by exact_mod_cast n
          push_cast at this
          exact this
        exact abs_le.1 n'
      have n1' := near τ
      have n2' := near τ'
      rw [hτ] at n1'
      rw [hτ'] at n2'
      dsimp only at n1'
      have i2' := abs_le.1 i2
      set Q : ℚ := (((List.filter (fun p => rawMatches N.vars v (N.parents v) x u p.1)
        (List.flatMap consecutive [SampleNet.terminate (r' :: rs)])).map (fun p => p.2.1 - p.1.1))).sum with hQ
      rw [List.length_cons, Nat.cast_succ]
      by_cases hcase : InCase N v x u vals
      · rw [if_pos (by simp [hcase]), if_pos hcase, List.map_cons, List.sum_cons, ← hQ, Rat.cast_add, Rat.cast_sub]
        dsimp only
        rw [show (castRow r).1 = r.1 from rfl, hb1, hrτ, hrτ', abs_le]
        constructor <;> linarith [i2'.1, i2'.2]
      · rw [if_neg (by simp [hcase]), if_neg hcase, ← hQ, abs_le]
        constructor <;> linarith [i2'.1, i2'.2]

/-- **C181, C182** (the connection with the rows).  Behind the rows `CTBN_Sample` returns there is a list of moves of the loop with real clocks on the same
draws; the transitions counted on the rows are those of all moves but the last, and the time measured on the rows is that of the moves, up to
the rounding of the stamps. -/
theorem sample_rows_statistics {net : SampleNet} (hD : Describes net N) {tEnd : ℚ} {maxTr : ℤ} {d : SampleDraws} {rows : RawTraj}
    (h : Samples net tEnd maxTr d rows) {v : Label} (hv : v ∈ N.vars) {x y : Nat} (hxy : y ≠ x) (u : List Nat) :
    ∃ ms : List Move, ms.length + 1 = rows.length ∧ net.movesR ms.length (realDraws d) net.initClock = .ok ms ∧
      rawTransitions N.vars [rows] v (N.parents v) x y u = moveCount N v x y u (N.vars.map (fun _ => 0)) ms.dropLast ∧
      |(rawResidence N.vars [rows] v (N.parents v) x u : ℝ) - timeSpent N v x u (N.vars.map (fun _ => 0)) ms| ≤ ms.length / 10000 := by
  obtain ⟨ms, rows₀, h1, h2, rfl⟩ := sample_rows_of_moves hD hOK h
  obtain ⟨a, b⟩ := rows_statistics hOK hv hxy u ms (by simp) h2
  refine ⟨ms, ?_, h1, a, b⟩
  have hl : ∀ (ms : List Move) (t : ℝ) (vals : List Nat), (movesFrames t vals ms).length = ms.length + 1 := by
    intro ms
    induction ms with
    | nil => intro t vals; rfl
    | cons m ms ih => intro t vals; rw [movesFrames, List.length_cons, ih, List.length_cons]
  rw [terminate_length, h2.length_eq, hl]

end

/-! ## Non-vacuity -/

namespace Demo
open MeasureTheory Filter Topology

/-- C181: `Y` leaves its state 0 with intensity 3 when `X` is in 1; in sampled trajectories the mean number of exits is a third of the mean time. -/
example (n : Nat) :
    ∫ ω, (moveCount ctbn "Y" 0 1 [1] [0, 0] (sampledMoves net someCategorical n ω) : ℝ) ∂drawLaw 2 (Measure.infinitePi choiceLaw)
      = 1 / 3 * ∫ ω, timeSpent ctbn "Y" 0 [1] [0, 0] (sampledMoves net someCategorical n ω) ∂drawLaw 2 (Measure.infinitePi choiceLaw) := by
  have h := (sample_stats describes ok someCategorical conservative (v := "Y") (by decide) (x := 0) (y := 1) (by decide) (by decide) [1] n).2.2.1
  have e : ctbn.inverseAt "Y" [1] 0 1 = 1 / 3 := by
    unfold Ctbn.inverseAt
    have e1 : ctbn.intensityAt "Y" [1] 0 1 = 3 := by decide +kernel
    have e2 : ctbn.exitAt "Y" [1] 0 = 3 := by decide +kernel
    rw [e1, e2]; norm_num
  rw [e] at h
  exact h

/-- C182: that intensity is not recovered. -/
example : ∃ ε > 0, ∀ κ > (0 : ℝ), Tendsto (fun n : ℕ => drawLaw 2 (Measure.infinitePi choiceLaw) {ω |
      |estimateAt ctbn "Y" 0 1 [1] [0, 0] (sampledMoves net someCategorical n ω) - (ctbn.intensityAt "Y" [1] 0 1 : ℝ)| < ε ∧
      κ * n ≤ timeSpent ctbn "Y" 0 [1] [0, 0] (sampledMoves net someCategorical n ω)}) atTop (𝓝 0) :=
  sample_estimate_misses describes ok someCategorical conservative (v := "Y") (by decide) (x := 0) (y := 1) (by decide) (by decide) [1]
    (by decide +kernel) (by decide +kernel) (by decide +kernel)

/-- The rows of `samples3` and the moves behind them. -/
example : ∃ ms : List Move, ms.length + 1 = 4 ∧ net.movesR ms.length (realDraws draws) net.initClock = .ok ms ∧
      rawTransitions ["X", "Y"] [[(0, [0, 0]), (3333/10000, [0, 1]), (8333/10000, [0, 0]), (1, [-1, -1])]] "Y" ["X"] 0 1 [0]
        = moveCount ctbn "Y" 0 1 [0] [0, 0] ms.dropLast ∧
      |(rawResidence ["X", "Y"] [[(0, [0, 0]), (3333/10000, [0, 1]), (8333/10000, [0, 0]), (1, [-1, -1])]] "Y" ["X"] 0 [0] : ℝ)
        - timeSpent ctbn "Y" 0 [0] [0, 0] ms| ≤ ms.length / 10000 :=
  sample_rows_statistics ok describes samples3 (v := "Y") (by decide) (x := 0) (y := 1) (by decide) [0]

/-- A single variable with two states, left with the intensities 2 and 3. -/
def binCim : List (List ℚ) := [[-2, 2], [3, -3]]

def binCtbn : Ctbn where
  vars := ["X"]
  card := fun _ => 2
  parents := fun _ => []
  cim := fun _ _ => binCim

def sBin : SetOfCims := ⟨"X", [], 2, [[]], false, [mkCim binCim]⟩

def binNet : SampleNet := SampleNet.new ["X"] [] [("X", sBin)]

theorem bin_describes : Describes binNet binCtbn where
  vnames := rfl
  parents := by decide
  cims := by
    intro v hv
    simp only [binCtbn, List.mem_cons, List.not_mem_nil, or_false] at hv
    subst hv
    refine ⟨sBin, rfl, rfl, by decide, ?_, ?_, ?_⟩
    · intro u
      simp only [sBin, List.mem_singleton, InRangeAssign]
      constructor
      · rintro rfl; exact .nil
      · intro h; cases h; rfl
    · intro k u m h1 h2
      have hk : k < 1 := by have := (List.getElem?_eq_some_iff.1 h2).1; simpa [sBin] using this
      have : k = 0 := by omega
      subst this
      simp only [sBin, List.getElem?_cons_zero, Option.some.injEq] at h2
      rw [← h2]; rfl
    · intro h; simp [binCtbn, Ctbn.parentCards] at h

theorem bin_ok : binCtbn.OK where
  nonempty := by simp [binCtbn]
  nodup := by decide
  closed := by decide
  pos := by decide
  cims := fun _ _ _ _ => (matrixOK_of (by decide +kernel) : Ctbn.MatrixOK 2 binCim)

theorem bin_conservative : binCtbn.Conservative := by
  intro vals hr v hv
  obtain ⟨h1, h2⟩ := hr
  obtain ⟨x, rfl⟩ : ∃ x, vals = [x] := by
    match vals, h1 with
    | [x], _ => exact ⟨x, rfl⟩
  have hx : x < 2 := h2 "X" (by decide)
  have hall : ∀ x < 2, ∀ v ∈ ["X"], binCtbn.exitRate [x] v = (binCtbn.weights [x] v).sum := by decide +kernel
  rw [← weights_sum, hall x hx v hv]

/-- C183: the intensity 3 of leaving state 1 is estimated as 1/3. -/
example {ε : ℝ} (hε : 0 < ε) : Tendsto (fun n : ℕ => drawLaw 1 (Measure.infinitePi choiceLaw) {ω |
      ε ≤ |estimateAt binCtbn "X" 1 0 [] [0] (sampledMoves binNet someCategorical n ω) - 1 / 3|}) atTop (𝓝 0) := by
  have h := sample_estimate_binary bin_describes bin_ok someCategorical bin_conservative (v := "X") rfl rfl rfl (x := 1) (y := 0)
    (by decide) (by decide) (by decide) hε
  have e : (binCtbn.intensityAt "X" [] 1 0 : ℝ) = 3 := by
    have : binCtbn.intensityAt "X" [] 1 0 = 3 := by decide +kernel
    rw [this]; norm_num
  rw [e] at h
  exact h

end Demo

end

end PyCTBN
