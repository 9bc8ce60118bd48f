import Verif.Spec.Params
import Verif.Lemmas.Params

/-! Mixed-radix arithmetic behind `p_combs` and the scalar indexes. -/

namespace PyCTBN
open Spec

/-- Digits of a rank, first parent fastest. -/
def digits : List Nat → Nat → List Nat
  | [], _ => []
  | p :: ps, r => (r % p) :: digits ps (r / p)

theorem meshRest_closed (ps : List Nat) : meshRest ps = (List.range ps.prod).map (digits ps) := by
  induction ps with
  | nil => rfl
  | cons p ps ih =>
    rw [meshRest, ih, List.prod_cons]
    rcases Nat.eq_zero_or_pos p with rfl | hp
    · simp
    · rw [List.flatMap_map, List.flatMap_def, Nat.mul_comm]
      have := flatten_map_range p ps.prod hp (digits (p :: ps))
      rw [← this]
      congr 1
      apply List.map_congr_left
      intro q _
      apply List.map_congr_left
      intro x hx
      have hx' := List.mem_range.1 hx
      simp only [digits]
      rw [Nat.mul_comm q p, Nat.mul_add_mod, Nat.mod_eq_of_lt hx', Nat.mul_add_div hp, Nat.div_eq_of_lt hx', Nat.add_zero]

theorem rank_lt {ps us : List Nat} (h : InRangeAssign ps us) : rank ps us < ps.prod := by
  unfold InRangeAssign at h
  induction h with
  | nil => simp [rank]
  | @cons u p us ps hu _ ih =>
    rw [rank, List.prod_cons]
    calc u + p * rank ps us < p + p * rank ps us := by omega
      _ = p * (rank ps us + 1) := by ring
      _ ≤ p * ps.prod := Nat.mul_le_mul_left _ ih

theorem digits_rank {ps us : List Nat} (h : InRangeAssign ps us) : digits ps (rank ps us) = us := by
  unfold InRangeAssign at h
  induction h with
  | nil => simp [digits]
  | @cons u p us ps hu _ ih =>
    have hp : 0 < p := by omega
    rw [rank, digits, Nat.add_mul_mod_self_left, Nat.mod_eq_of_lt hu, Nat.add_mul_div_left _ _ hp,
      Nat.div_eq_of_lt hu, Nat.zero_add, ih]

theorem digits_inRange {ps : List Nat} {r : Nat} (h : r < ps.prod) : InRangeAssign ps (digits ps r) ∧ rank ps (digits ps r) = r := by
  induction ps generalizing r with
  | nil => simp at h; subst h; exact ⟨List.Forall₂.nil, rfl⟩
  | cons p ps ih =>
    rw [List.prod_cons] at h
    have hp : 0 < p := by
      rcases Nat.eq_zero_or_pos p with rfl | h'
      · simp at h
      · exact h'
    have : r / p < ps.prod := by rw [Nat.div_lt_iff_lt_mul hp, Nat.mul_comm]; exact h
    obtain ⟨h1, h2⟩ := ih this
    refine ⟨List.Forall₂.cons (Nat.mod_lt _ hp) h1, ?_⟩
    rw [digits, rank, h2]; exact Nat.mod_add_div r p

theorem rank_inj {ps us vs : List Nat} (hu : InRangeAssign ps us) (hv : InRangeAssign ps vs)
    (h : rank ps us = rank ps vs) : us = vs := by
  rw [← digits_rank hu, h, digits_rank hv]

theorem meshRest_getElem? {ps : List Nat} {r : Nat} {u : List Nat} :
    (meshRest ps)[r]? = some u ↔ InRangeAssign ps u ∧ rank ps u = r := by
  rw [meshRest_closed, List.getElem?_map]
  by_cases hr : r < ps.prod
  · rw [List.getElem?_range hr]
    simp only [Option.map_some, Option.some.injEq]
    constructor
    · rintro rfl; exact digits_inRange hr
    · rintro ⟨h1, rfl⟩; exact digits_rank h1
  · rw [List.getElem?_eq_none (by simpa using hr)]
    constructor
    · intro h; cases h
    · rintro ⟨h1, rfl⟩; exact absurd (rank_lt h1) hr

/-- The table built by the code is the right enumeration *for the list with its first two entries exchanged*. -/
theorem buildPCombs_closed (ps : List Nat) : buildPCombs ps = meshRest (swapFirstTwo ps) := by
  match ps with
  | [] => rfl
  | [p] => simp [buildPCombs, meshRows, meshRest, swapFirstTwo]
  | p :: q :: rest =>
    simp only [buildPCombs, List.length_cons, meshRows, swapFirstTwo, meshRest]
    rw [if_pos (by omega), if_pos (by omega)]
    simp only [List.map_flatMap, List.map_map, List.flatMap_assoc, List.flatMap_map]
    rfl

theorem swap_of_exact {c : Nat} {ps : List Nat} (h : ∀ p q rest, ps = p :: q :: rest → p = q) : swapFirstTwo ps = ps := by
  match ps with
  | [] => rfl
  | [p] => rfl
  | p :: q :: rest => have := h p q rest rfl; subst this; rfl

/-- Weighted sum of parent states with the strides used by the code. -/
def strideSum (acc : Nat) : List Nat → List Nat → Nat
  | p :: ps, u :: us => u * (acc * p) + strideSum (acc * p) ps us
  | _, _ => 0

theorem strideSum_mul (a acc : Nat) (ps us : List Nat) : strideSum (a * acc) ps us = a * strideSum acc ps us := by
  induction ps generalizing acc us with
  | nil => simp [strideSum]
  | cons p ps ih =>
    cases us with
    | nil => simp [strideSum]
    | cons u us => simp only [strideSum]; rw [Nat.mul_assoc, ih]; ring

theorem strideSum_eq_rank {c : Nat} {ps us : List Nat} (hp : ∀ p ∈ ps, p = 1 ∨ p = c) (hu : InRangeAssign ps us) (acc : Nat) :
    strideSum acc ps us = c * acc * rank ps us := by
  unfold InRangeAssign at hu
  induction hu generalizing acc with
  | nil => simp [strideSum, rank]
  | @cons u p us ps hlt _ ih =>
    rw [strideSum, rank, ih (fun q hq => hp q (by simp [hq]))]
    rcases hp p (by simp) with rfl | rfl
    · have : u = 0 := by omega
      subst this; ring
    · ring

theorem zipWith_cumprod (acc : Nat) (ps us : List Nat) :
    (List.zipWith (fun (v : ℤ) (s : Nat) => v * (s : ℤ)) (us.map (fun (v : Nat) => (v : ℤ))) (cumprodFrom acc ps)).sum
      = (strideSum acc ps us : ℤ) := by
  induction ps generalizing acc us with
  | nil => simp [strideSum, cumprodFrom]
  | cons p ps ih =>
    cases us with
    | nil => simp [strideSum]
    | cons u us => simp [strideSum, cumprodFrom, ih]

theorem cumprodFrom_last (acc : Nat) (ps : List Nat) (a : Nat) :
    ((acc * a) :: cumprodFrom (acc * a) ps).getLast? = some (acc * (a :: ps).prod) := by
  induction ps generalizing acc a with
  | nil => simp [cumprodFrom]
  | cons p ps ih =>
    rw [cumprodFrom, List.getLast?_cons_cons, ih]
    simp only [List.prod_cons]
    congr 1; ring

theorem pyGet_last {α} {l : List α} {a : α} (h : l.getLast? = some a) : pyGet l (l.length - 1) = .ok a := by
  rw [pyGet_ok, ← List.getLast?_eq_getElem?]; exact h

theorem timeIdx_last (c : Nat) (ps : List Nat) :
    pyGet (buildTimeScalarIndexing c ps) ((buildTimeScalarIndexing c ps).length - 1) = .ok (ps.prod * c) := by
  apply pyGet_last
  have := cumprodFrom_last 1 ps c
  rw [buildTimeScalarIndexing, cumprod, cumprodFrom, this]; simp [Nat.mul_comm]

theorem transIdx_last (c : Nat) (ps : List Nat) :
    pyGet (buildTransitionScalarIndexing c ps) ((buildTransitionScalarIndexing c ps).length - 1)
      = .ok (ps.prod * c * c) := by
  apply pyGet_last
  have := cumprodFrom_last 1 (c :: ps) c
  rw [buildTransitionScalarIndexing, cumprod, cumprodFrom, this]
  simp; ring

/-- Index of a row for residence times: child state plus the strided parent states. -/
theorem rowIndex_time {c : Nat} (hc : 0 < c) {ps us cols : List Nat} {x : Nat} {row : List ℤ}
    (hsel : selectCols row cols = .ok ((x :: us).map (fun (v : Nat) => (v : ℤ)))) :
    rowIndex cols (buildTimeScalarIndexing c ps) row = .ok ((x + strideSum 1 ps us : Nat) : ℤ) := by
  unfold rowIndex
  rw [hsel]
  have h0 : pyGet (buildTimeScalarIndexing c ps) 0 = .ok c := by
    rw [pyGet_ok]; simp [buildTimeScalarIndexing, cumprod, cumprodFrom]
  rw [h0]
  simp only [Except.bind_ok', Except.pure_eq_ok', Except.ok.injEq]
  have hz := zipWith_cumprod 1 (c :: ps) (x :: us)
  rw [buildTimeScalarIndexing, cumprod, hz]
  have : strideSum 1 (c :: ps) (x :: us) = c * (x + strideSum 1 ps us) := by
    simp only [strideSum]; rw [Nat.one_mul]
    have := strideSum_mul c 1 ps us
    rw [Nat.mul_one] at this; rw [this]; ring
  rw [this]; push_cast
  rw [Int.mul_tdiv_cancel_left]; omega

/-- Index of a row for transitions. -/
theorem rowIndex_trans {c : Nat} (hc : 0 < c) {ps us cols : List Nat} {x x' : Nat} {row : List ℤ}
    (hsel : selectCols row cols = .ok ((x' :: x :: us).map (fun (v : Nat) => (v : ℤ)))) :
    rowIndex cols (buildTransitionScalarIndexing c ps) row = .ok ((x' + c * (x + strideSum 1 ps us) : Nat) : ℤ) := by
  unfold rowIndex
  rw [hsel]
  have h0 : pyGet (buildTransitionScalarIndexing c ps) 0 = .ok c := by
    rw [pyGet_ok]; simp [buildTransitionScalarIndexing, cumprod, cumprodFrom]
  rw [h0]
  simp only [Except.bind_ok', Except.pure_eq_ok', Except.ok.injEq]
  have hz := zipWith_cumprod 1 (c :: c :: ps) (x' :: x :: us)
  rw [buildTransitionScalarIndexing, cumprod, hz]
  have : strideSum 1 (c :: c :: ps) (x' :: x :: us) = c * (x' + c * (x + strideSum 1 ps us)) := by
    simp only [strideSum]; rw [Nat.one_mul]
    have := strideSum_mul (c * c) 1 ps us
    rw [Nat.mul_one] at this; rw [this]; ring
  rw [this]; push_cast
  rw [Int.mul_tdiv_cancel_left]; omega

theorem selectCols_ok_iff {α} {row : List α} {cols : List Nat} {vals : List α} :
    selectCols row cols = .ok vals ↔ cols.map (fun i => row[i]?) = vals.map some := by
  unfold selectCols
  induction cols generalizing vals with
  | nil =>
    cases vals with
    | nil => exact ⟨fun _ => rfl, fun _ => rfl⟩
    | cons v vs => exact ⟨(fun h => by cases h), (fun h => by simp at h)⟩
  | cons i cols ih =>
    rw [List.mapM_cons]
    cases hg : pyGet row i with
    | error e =>
      have hn : row[i]? = none := by
        cases hr : row[i]? with
        | none => rfl
        | some a => rw [pyGet_ok.2 hr] at hg; cases hg
      constructor
      · intro h; cases h
      · intro h; cases vals <;> simp [hn] at h
    | ok a =>
      have ha := pyGet_ok.1 hg
      simp only [Except.bind_ok']
      cases hm : List.mapM (pyGet row) cols with
      | error e =>
        constructor
        · intro h; cases h
        · intro h
          cases vals with
          | nil => simp at h
          | cons v vs =>
            simp only [List.map_cons, List.cons.injEq] at h
            have := ih.2 h.2
            rw [hm] at this; cases this
      | ok ws =>
        simp only [Except.bind_ok', Except.pure_eq_ok', Except.ok.injEq]
        have hw := ih.1 hm
        constructor
        · rintro rfl; simp [ha, hw]
        · intro h
          cases vals with
          | nil => simp at h
          | cons v vs =>
            simp only [List.map_cons, List.cons.injEq] at h
            have h1 : a = v := by rw [ha] at h; exact Option.some.inj h.1
            have h2 : ws = vs := by
              rw [hw] at h
              exact (List.map_injective_iff.2 (fun _ _ h => Option.some.inj h)) h.2
            rw [h1, h2]

theorem prod_pos_of_pos {ps : List Nat} (h : ∀ p ∈ ps, 0 < p) : 0 < ps.prod := by
  induction ps with
  | nil => simp
  | cons p ps ih =>
    rw [List.prod_cons]; exact Nat.mul_pos (h p (by simp)) (ih (fun q hq => h q (by simp [hq])))

end PyCTBN
