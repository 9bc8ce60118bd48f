import Verif.Lemmas.Estimate

/-! Facts about every returning estimation (any cardinalities, any data). -/

namespace PyCTBN
open Spec

/-- Value of a successful computation. -/
def okVal (p : Py ℤ) : ℤ := match p with | .ok q => q | .error _ => 0

theorem mapM_eq_ok_iff {α} {f : α → Py ℤ} {l : List α} {out : List ℤ} :
    l.mapM f = .ok out ↔ (∀ a ∈ l, f a = .ok (okVal (f a))) ∧ out = l.map (fun a => okVal (f a)) := by
  constructor
  · intro h
    induction l generalizing out with
    | nil => cases h; simp
    | cons a l ih =>
      rw [List.mapM_cons] at h
      cases ha : f a with
      | error e => rw [ha] at h; cases h
      | ok q =>
        rw [ha] at h
        simp only [Except.bind_ok'] at h
        cases hl : l.mapM f with
        | error e => rw [hl] at h; cases h
        | ok qs =>
          rw [hl] at h
          simp only [Except.bind_ok', Except.pure_eq_ok', Except.ok.injEq] at h
          obtain ⟨h1, h2⟩ := ih hl
          subst h
          refine ⟨?_, by simp [ha, okVal, h2]⟩
          intro b hb
          rcases List.mem_cons.1 hb with rfl | hb
          · simp [ha, okVal]
          · exact h1 b hb
  · rintro ⟨h1, rfl⟩; exact mapM_ok_map h1

/-- Code of a row for residence times. -/
def tcode (o : Nat) (cols struct : List Nat) (r : List ℤ) : Py ℤ := rowIndex cols struct (r.take (o - 1))

/-- Entries of the residence-time table as sums over the data. -/
def timeEntry (o : Nat) (cols struct : List Nat) (data : List (ℚ × List ℤ)) (q : Nat) : ℚ :=
  ((data.filter (fun p => decide (okVal (tcode o cols struct p.2) = (q : ℤ)))).map Prod.fst).sum

theorem resTime_returns_iff {t : Trajectory} {cols struct : List Nat} {k c : Nat}
    (hk : 0 < k) (hc : 0 < c) (hlast : pyGet struct (struct.length - 1) = .ok (k * c)) (T : List (List ℚ)) :
    computeStateResTime t.times t.trajectory cols struct k c = .ok T ↔
      t.times.length = t.rows.length ∧
      (∀ r ∈ t.rows, tcode t.origCols cols struct r = .ok (okVal (tcode t.origCols cols struct r)) ∧
        0 ≤ okVal (tcode t.origCols cols struct r) ∧ okVal (tcode t.origCols cols struct r) < ((k * c : Nat) : ℤ)) ∧
      T = (List.range k).map (fun r => (List.range c).map (fun x =>
        timeEntry t.origCols cols struct (t.times.zip t.rows) (r * c + x))) := by
  rw [computeStateResTime_ok_iff hk hc hlast, Trajectory.trajectory]
  have hmap : (t.rows.map (fun r => r.take (t.origCols - 1))).mapM (rowIndex cols struct)
      = t.rows.mapM (tcode t.origCols cols struct) := List.mapM_map ..
  rw [hmap]
  have htab : timeTable k c (t.rows.map (fun r => okVal (tcode t.origCols cols struct r))) t.times
      = (List.range k).map (fun r => (List.range c).map (fun x =>
        timeEntry t.origCols cols struct (t.times.zip t.rows) (r * c + x))) := by
    unfold timeTable timeEntry
    apply List.map_congr_left; intro q _
    apply List.map_congr_left; intro x _
    rw [zip_map_swap, List.filter_map, List.map_map]; rfl
  constructor
  · rintro ⟨idx, h1, h2, h3, h4⟩
    obtain ⟨a1, a2⟩ := mapM_eq_ok_iff.1 h1
    subst a2
    refine ⟨by simpa using h2, ?_, h4.trans htab⟩
    intro r hr
    exact ⟨a1 r hr, h3 _ (List.mem_map_of_mem (f := fun r => okVal (tcode t.origCols cols struct r)) hr)⟩
  · rintro ⟨h1, h2, h3⟩
    refine ⟨_, mapM_ok_map (fun r hr => (h2 r hr).1), by simpa using h1, ?_, h3.trans htab.symm⟩
    intro q hq
    obtain ⟨r, hr, rfl⟩ := List.mem_map.1 hq
    exact (h2 r hr).2

/-- Next state of the child in a row. -/
def ncode (i : Nat) (r : List ℤ) : Py ℤ := pyGet r (r.length / 2 + i)

/-- Number of non-terminal rows with a given code. -/
def transEntry (i : Nat) (cols struct : List Nat) (rows : List (List ℤ)) (q : Nat) : Nat :=
  (rows.filter (fun r => decide (0 ≤ okVal (ncode i r)) && decide (okVal (rowIndex cols struct r) = (q : ℤ)))).length

theorem transitions_returns_iff {i : Nat} {rows : List (List ℤ)} {cols struct : List Nat} {k c : Nat}
    (hk : 0 < k) (hc : 0 < c) (hlast : pyGet struct (struct.length - 1) = .ok (k * c * c)) (M : List (List (List Nat))) :
    computeStateTransitions i rows cols struct k c = .ok M ↔
      (∀ r ∈ rows, ncode i r = .ok (okVal (ncode i r)) ∧ (0 ≤ okVal (ncode i r) →
        rowIndex cols struct r = .ok (okVal (rowIndex cols struct r)) ∧
        0 ≤ okVal (rowIndex cols struct r) ∧ okVal (rowIndex cols struct r) < ((k * c * c : Nat) : ℤ))) ∧
      M = (List.range k).map (fun r => (List.range c).map (fun x => (List.range c).map (fun x' =>
        if x = x' then ((List.range c).map (fun y => if x = y then 0 else
          transEntry i cols struct rows ((r * c + x) * c + y))).sum
        else transEntry i cols struct rows ((r * c + x) * c + x')))) := by
  rw [computeStateTransitions_ok_iff hk hc hlast]
  have hkept : ((rows.zip (rows.map (fun r => okVal (ncode i r)))).filter (fun p => decide (0 ≤ p.2))).map Prod.fst
      = rows.filter (fun r => decide (0 ≤ okVal (ncode i r))) :=
    zip_map_filter_fst rows (fun r => okVal (ncode i r)) (fun q => decide (0 ≤ q))
  have hcount : ∀ q, codeCount ((rows.filter (fun r => decide (0 ≤ okVal (ncode i r)))).map
      (fun r => okVal (rowIndex cols struct r))) q = transEntry i cols struct rows q := by
    intro q
    unfold codeCount transEntry
    rw [List.filter_map, List.length_map, List.filter_filter]
    congr 1
    apply List.filter_congr
    intro r _
    simp only [Function.comp]
    rw [Bool.and_comm]
  have htab : transTable k c ((rows.filter (fun r => decide (0 ≤ okVal (ncode i r)))).map
      (fun r => okVal (rowIndex cols struct r))) = (List.range k).map (fun r => (List.range c).map (fun x => (List.range c).map (fun x' =>
        if x = x' then ((List.range c).map (fun y => if x = y then 0 else
          transEntry i cols struct rows ((r * c + x) * c + y))).sum
        else transEntry i cols struct rows ((r * c + x) * c + x')))) := by
    unfold transTable; simp only [hcount]
  constructor
  · rintro ⟨nexts, idx, h1, h2, h3, h4⟩
    obtain ⟨a1, a2⟩ := (mapM_eq_ok_iff (f := ncode i)).1 h1
    subst a2
    rw [hkept] at h2
    obtain ⟨b1, b2⟩ := mapM_eq_ok_iff.1 h2
    subst b2
    refine ⟨?_, h4.trans htab⟩
    intro r hr
    refine ⟨a1 r hr, fun h0 => ?_⟩
    have hmem : r ∈ rows.filter (fun r => decide (0 ≤ okVal (ncode i r))) := List.mem_filter.2 ⟨hr, by simpa using h0⟩
    exact ⟨b1 r hmem, h3 _ (List.mem_map_of_mem (f := fun r => okVal (rowIndex cols struct r)) hmem)⟩
  · rintro ⟨h1, h2⟩
    refine ⟨_, (rows.filter (fun r => decide (0 ≤ okVal (ncode i r)))).map (fun r => okVal (rowIndex cols struct r)),
      mapM_ok_map (f := ncode i) (fun r hr => (h1 r hr).1), ?_, ?_, h2.trans htab.symm⟩
    · rw [hkept]
      apply mapM_ok_map
      intro r hr
      obtain ⟨hr1, hr2⟩ := List.mem_filter.1 hr
      exact ((h1 r hr1).2 (by simpa using hr2)).1
    · intro q hq
      obtain ⟨r, hr, rfl⟩ := List.mem_map.1 hq
      obtain ⟨hr1, hr2⟩ := List.mem_filter.1 hr
      exact ((h1 r hr1).2 (by simpa using hr2)).2

theorem sum_range_ite (N : Nat) (q : Nat) (hq : q < N) (w : ℚ) :
    ((List.range N).map (fun k => if q = k then w else 0)).sum = w := by
  induction N with
  | zero => omega
  | succ N ih =>
    rw [List.range_succ, List.map_append, List.sum_append]
    by_cases h : q = N
    · subst h
      have : ((List.range q).map (fun k => if q = k then w else 0)).sum = 0 := by
        apply List.sum_eq_zero
        intro x hx
        obtain ⟨k, hk, rfl⟩ := List.mem_map.1 hx
        rw [if_neg]; have := List.mem_range.1 hk; omega
      rw [this]; simp
    · rw [ih (by omega)]; simp [h]

/-- Summing the weights over all codes gives back the total weight. -/
theorem sum_codes (N : Nat) (f : List ℤ → ℤ) (data : List (ℚ × List ℤ)) (h : ∀ p ∈ data, 0 ≤ f p.2 ∧ f p.2 < (N : ℤ)) :
    ((List.range N).map (fun q : Nat => ((data.filter (fun p => decide (f p.2 = (q : ℤ)))).map Prod.fst).sum)).sum
      = (data.map Prod.fst).sum := by
  induction data with
  | nil => simp
  | cons p data ih =>
    have hp := h p (by simp)
    have e : ∀ q : Nat, (((p :: data).filter (fun p => decide (f p.2 = (q : ℤ)))).map Prod.fst).sum
        = (if (f p.2).toNat = q then p.1 else 0) + ((data.filter (fun p => decide (f p.2 = (q : ℤ)))).map Prod.fst).sum := by
      intro q
      rw [List.filter_cons]
      by_cases hq : f p.2 = (q : ℤ)
      · have : (f p.2).toNat = q := by omega
        simp [hq]
      · have : (f p.2).toNat ≠ q := by omega
        simp [hq, this]
    simp only [e]
    rw [List.sum_map_add, sum_range_ite N _ (by omega), ih (fun p hp => h p (by simp [hp]))]
    simp

end PyCTBN
