import Verif.Spec.Indep
import Verif.Lemmas.Estimate
import Mathlib.Data.List.InsertIdx
import Mathlib.Tactic.FieldSimp
import Mathlib.Tactic.Ring
import Mathlib.Tactic.Linarith
import Mathlib.Tactic.Positivity

namespace PyCTBN
open Spec Indep

theorem zipIdx_range_map {α : Type} (c : Nat) (f : Nat → α) :
    ((List.range c).map f).zipIdx = (List.range c).map (fun x => (f x, x)) := by
  apply List.ext_getElem
  · simp
  · intro i h1 h2; simp

theorem diagonal_matrixOf {α : Type} (c : Nat) (m : Nat → Nat → α) :
    diagonal (matrixOf c m) = (List.range c).map (fun x => m x x) := by
  unfold diagonal matrixOf
  rw [zipIdx_range_map, List.map_map]
  have : (List.range c).map ((fun x : List α × ℕ => x.1[x.2]?) ∘ fun x => ((List.range c).map (m x), x))
      = ((List.range c).map (fun x => m x x)).map some := by
    rw [List.map_map]
    apply List.map_congr_left
    intro x hx
    have := List.mem_range.1 hx
    simp [this]
  rw [this]
  unfold List.reduceOption
  simp [List.filterMap_map]

theorem eraseIdx_range_map {α : Type} (c x : Nat) (f : Nat → α) :
    ((List.range c).map f).eraseIdx x = ((List.range c).filter (fun y => decide (y ≠ x))).map f := by
  rw [List.eraseIdx_map]
  congr 1
  by_cases hx : x < c
  · have h1 := List.nodup_range (n := c)
    have : (List.range c).eraseIdx x = (List.range c).erase x := by
      conv_rhs => rw [← eraseIdx_idxOf]
      congr 1
      have := h1.idxOf_getElem x (by simpa using hx)
      simpa using this.symm
    rw [this, h1.erase_eq_filter]
    apply List.filter_congr; intro y _; rw [Bool.eq_iff_iff]; simp
  · rw [List.eraseIdx_of_length_le (by simpa using hx)]
    symm; apply List.filter_eq_self.2
    intro y hy; have := List.mem_range.1 hy; simp; omega

theorem noDiag_matrixOf {α : Type} (c : Nat) (m : Nat → Nat → α) :
    noDiag (matrixOf c m) = (List.range c).map (fun x => ((List.range c).filter (fun y => decide (y ≠ x))).map (m x)) := by
  unfold noDiag matrixOf
  rw [zipIdx_range_map, List.map_map]
  apply List.map_congr_left
  intro x _
  exact eraseIdx_range_map c x (m x)

theorem pyGet_range_map {α : Type} {c x : Nat} (hx : x < c) (f : Nat → α) : pyGet ((List.range c).map f) x = .ok (f x) := by
  rw [pyGet_ok]; simp [hx]

namespace XR

theorem sum_cons (a : XR) (l : List XR) : sum (a :: l) = a.add (sum l) := rfl

theorem add_nan (a : XR) : a.add nan = nan := by cases a <;> rfl
theorem nan_add (a : XR) : nan.add a = nan := by cases a <;> rfl

theorem sum_nan {l : List XR} (h : nan ∈ l) : sum l = nan := by
  induction l with
  | nil => simp at h
  | cons a l ih =>
    rw [sum_cons]
    rcases List.mem_cons.1 h with rfl | h
    · exact nan_add _
    · rw [ih h]; exact add_nan a

theorem sum_fin {α : Type} (l : List α) (f : α → ℝ) : sum (l.map (fun a => fin (f a))) = fin (l.map f).sum := by
  induction l with
  | nil => rfl
  | cons a l ih => rw [List.map_cons, sum_cons, ih, List.map_cons, List.sum_cons]; rfl

theorem not_lt_nan (a : XR) : ¬ a.lt nan := by cases a <;> exact id
theorem not_nan_lt (a : XR) : ¬ nan.lt a := by cases a <;> exact id

theorem infOf_zero : infOf 0 = nan := by simp [infOf]
theorem infOf_pos {r : ℝ} (h : 0 < r) : infOf r = pinf := by simp [infOf, h]

end XR

theorem zipWith_map_same {α β γ δ : Type} (f : β → γ → δ) (g : α → β) (h : α → γ) (l : List α) :
    List.zipWith f (l.map g) (l.map h) = l.map (fun a => f (g a) (h a)) := by
  induction l with
  | nil => rfl
  | cons a l ih => simp [ih]

/-- One term of the statistic, both exit counts positive. -/
theorem chi_term {r1 r2 a b : ℝ} (h1 : 0 < r1) (h2 : 0 < r2) (hab : 0 < a + b) :
    (((((XR.div r1 r2).sqrt.mulFin b).add ((XR.div r2 r1).sqrt.mulFin a).neg).sq).divFin (a + b))
      = .fin ((r1 * b - r2 * a) ^ 2 / (r1 * r2 * (a + b))) := by
  have e1 : XR.div r1 r2 = .fin (r1 / r2) := by simp [XR.div, h2.ne']
  have e2 : XR.div r2 r1 = .fin (r2 / r1) := by simp [XR.div, h1.ne']
  have p1 : ¬ r1 / r2 < 0 := not_lt.2 (by positivity)
  have p2 : ¬ r2 / r1 < 0 := not_lt.2 (by positivity)
  rw [e1, e2]
  simp only [XR.sqrt, if_neg p1, if_neg p2, XR.mulFin, XR.neg, XR.add, XR.sq, XR.divFin, XR.div, if_neg hab.ne']
  congr 1
  have s1 : Real.sqrt (r1 / r2) ^ 2 = r1 / r2 := Real.sq_sqrt (by positivity)
  have s2 : Real.sqrt (r2 / r1) ^ 2 = r2 / r1 := Real.sq_sqrt (by positivity)
  have s12 : Real.sqrt (r1 / r2) * Real.sqrt (r2 / r1) = 1 := by
    rw [← Real.sqrt_mul (by positivity)]
    rw [div_mul_div_comm, mul_comm r2 r1, div_self (by positivity), Real.sqrt_one]
  have : (Real.sqrt (r1 / r2) * b + -(Real.sqrt (r2 / r1) * a)) ^ 2 = (r1 / r2) * b ^ 2 - 2 * (a * b) + (r2 / r1) * a ^ 2 := by
    calc _ = Real.sqrt (r1 / r2) ^ 2 * b ^ 2 - 2 * (Real.sqrt (r1 / r2) * Real.sqrt (r2 / r1)) * (a * b)
          + Real.sqrt (r2 / r1) ^ 2 * a ^ 2 := by ring
      _ = _ := by rw [s1, s2, s12]; ring
  rw [this]
  field_simp
  ring

theorem chi_term_nan_zero {r1 r2 : ℝ} (h1 : 0 < r1) (h2 : 0 < r2) :
    (((((XR.div r1 r2).sqrt.mulFin 0).add ((XR.div r2 r1).sqrt.mulFin 0).neg).sq).divFin (0 + 0)) = .nan := by
  have e1 : XR.div r1 r2 = .fin (r1 / r2) := by simp [XR.div, h2.ne']
  have e2 : XR.div r2 r1 = .fin (r2 / r1) := by simp [XR.div, h1.ne']
  have p1 : ¬ r1 / r2 < 0 := not_lt.2 (by positivity)
  have p2 : ¬ r2 / r1 < 0 := not_lt.2 (by positivity)
  rw [e1, e2]
  simp [XR.sqrt, p1, p2, XR.mulFin, XR.neg, XR.add, XR.sq, XR.divFin, XR.div, XR.infOf_zero]

theorem chi_term_nan_left {r2 a b : ℝ} (h2 : 0 ≤ r2) (ha : a = 0) :
    (((((XR.div 0 r2).sqrt.mulFin b).add ((XR.div r2 0).sqrt.mulFin a).neg).sq).divFin (a + b)) = .nan := by
  subst ha
  have : (XR.div r2 0).sqrt.mulFin 0 = .nan := by
    rcases h2.lt_or_eq with h | h
    · simp [XR.div, XR.infOf_pos h, XR.sqrt, XR.mulFin, XR.infOf_zero]
    · rw [← h]; simp [XR.div, XR.infOf_zero, XR.sqrt, XR.mulFin]
  rw [this]
  have : XR.neg .nan = .nan := rfl
  rw [this, XR.add_nan]; rfl

theorem chi_term_nan_right {r1 a b : ℝ} (h1 : 0 ≤ r1) (hb : b = 0) :
    (((((XR.div r1 0).sqrt.mulFin b).add ((XR.div 0 r1).sqrt.mulFin a).neg).sq).divFin (a + b)) = .nan := by
  subst hb
  have : (XR.div r1 0).sqrt.mulFin 0 = .nan := by
    rcases h1.lt_or_eq with h | h
    · simp [XR.div, XR.infOf_pos h, XR.sqrt, XR.mulFin, XR.infOf_zero]
    · rw [← h]; simp [XR.div, XR.infOf_zero, XR.sqrt, XR.mulFin]
  rw [this, XR.nan_add]; rfl

theorem filter_sum_eq {β : Type} [AddCommMonoid β] (c x : Nat) (f : Nat → β) :
    (((List.range c).filter (fun y => decide (y ≠ x))).map f).sum = ∑ y ∈ (Finset.range c).erase x, f y := by
  have hnd : ((List.range c).filter (fun y => decide (y ≠ x))).Nodup := List.nodup_range.filter _
  rw [← List.sum_toFinset f hnd]
  congr 1
  ext y; simp [and_comm]

/-- The statistic as the code computes it: the textbook value if defined, else `NaN`. -/
theorem chi_closed {c : Nat} {m1 m2 : Nat → Nat → Nat} {x : Nat} (hx : x < c) (h1 : ExitCounts c m1) (h2 : ExitCounts c m2) :
    (ChiDefined c m1 m2 x → chi (m1 x x) (m2 x x) (((List.range c).filter (fun y => decide (y ≠ x))).map (m1 x))
      (((List.range c).filter (fun y => decide (y ≠ x))).map (m2 x)) = .fin (chiSquare c m1 m2 x)) ∧
    (¬ ChiDefined c m1 m2 x → chi (m1 x x) (m2 x x) (((List.range c).filter (fun y => decide (y ≠ x))).map (m1 x))
      (((List.range c).filter (fun y => decide (y ≠ x))).map (m2 x)) = .nan) := by
  unfold chi
  simp only
  rw [zipWith_map_same]
  constructor
  · intro hd
    rw [List.map_congr_left (g := fun y => XR.fin (((m1 x x : ℝ) * m2 x y - m2 x x * m1 x y) ^ 2 /
      (m1 x x * m2 x x * (m1 x y + m2 x y)))), XR.sum_fin, filter_sum_eq]
    · rfl
    · intro y hy
      simp only [List.mem_filter, List.mem_range, decide_eq_true_eq] at hy
      obtain ⟨p1, p2, p3⟩ := hd y hy.1 hy.2
      exact chi_term (by exact_mod_cast p1) (by exact_mod_cast p2) (by exact_mod_cast p3)
  · intro hd
    unfold ChiDefined at hd
    push Not at hd
    obtain ⟨y, hy, hyx, hd⟩ := hd
    have zero_entry : ∀ {m : Nat → Nat → Nat}, ExitCounts c m → m x x = 0 → m x y = 0 := by
      intro m hm h0
      have := hm x hx
      rw [h0] at this
      exact (Finset.sum_eq_zero_iff.1 this.symm) y (Finset.mem_erase.2 ⟨hyx, Finset.mem_range.2 hy⟩)
    apply XR.sum_nan
    rw [List.mem_map]
    refine ⟨y, by simp [hy, hyx], ?_⟩
    rcases Nat.eq_zero_or_pos (m1 x x) with z1 | z1
    · have za := zero_entry h1 z1
      rw [z1, za]
      exact_mod_cast chi_term_nan_left (r2 := (m2 x x : ℝ)) (a := 0) (b := (m2 x y : ℝ)) (by positivity) rfl
    · rcases Nat.eq_zero_or_pos (m2 x x) with z2 | z2
      · have zb := zero_entry h2 z2
        rw [z2, zb]
        exact_mod_cast chi_term_nan_right (r1 := (m1 x x : ℝ)) (a := (m1 x y : ℝ)) (b := 0) (by positivity) rfl
      · have := hd z1 z2
        have za : m1 x y = 0 := by omega
        have zb : m2 x y = 0 := by omega
        rw [za, zb]
        have := chi_term_nan_zero (r1 := (m1 x x : ℝ)) (r2 := (m2 x x : ℝ)) (by exact_mod_cast z1) (by exact_mod_cast z2)
        simpa using this

theorem anyRound_ok {f : Nat → Py Bool} {p : Nat → Prop} [DecidablePred p] (l : List Nat) (h : ∀ v ∈ l, f v = .ok (decide (p v))) :
    anyRound f l = .ok (decide (∃ v ∈ l, p v)) := by
  induction l with
  | nil => simp [anyRound]
  | cons v l ih =>
    rw [anyRound, h v (by simp)]
    simp only [Except.bind_ok']
    by_cases hv : p v
    · simp [hv]
    · simp only [hv, decide_false, Bool.false_eq_true, if_false]
      rw [ih (fun w hw => h w (by simp [hw]))]
      simp [hv]

end PyCTBN
