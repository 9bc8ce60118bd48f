import Verif.Lemmas.Arr
import Verif.Lemmas.Graph

/-! Closed forms of the two counting procedures. -/

namespace PyCTBN

/-- Table of total weights per code. -/
def timeTable (k c : Nat) (codes : List ℤ) (times : List ℚ) : List (List ℚ) :=
  (List.range k).map (fun r => (List.range c).map (fun x =>
    (((codes.zip times).filter (fun p => decide (p.1 = ((r * c + x : Nat) : ℤ)))).map Prod.snd).sum))

/-- Number of occurrences of a code. -/
def codeCount (codes : List ℤ) (q : Nat) : Nat := (codes.filter (fun x => decide (x = (q : ℤ)))).length

/-- Table of counts per code with the diagonal replaced by the sum of the rest of the row. -/
def transTable (k c : Nat) (codes : List ℤ) : List (List (List Nat)) :=
  (List.range k).map (fun r => (List.range c).map (fun i => (List.range c).map (fun j =>
    if i = j then ((List.range c).map (fun j' => if i = j' then 0 else codeCount codes ((r * c + i) * c + j'))).sum
    else codeCount codes ((r * c + i) * c + j))))

theorem assignAll_of_length {α} {k : Nat} {v : List α} (h : v.length = k) : assignAll k v = .ok v := by
  simp [assignAll, h]

theorem assignAll_ok {α} {k : Nat} {v w : List α} (hk : 0 < k) (hv : k ≤ v.length) (h : assignAll k v = .ok w) :
    v.length = k ∧ w = v := by
  unfold assignAll at h
  by_cases hl : v.length = k
  · rw [if_pos hl] at h; cases h; exact ⟨hl, rfl⟩
  · rw [if_neg hl] at h
    cases v with
    | nil => simp at h
    | cons a v =>
      cases v with
      | nil => simp at hl hv; omega
      | cons b v => simp at h

/-- The bincount/reshape/assign pipeline, weights version. -/
theorem bincountW_pipeline {k c : Nat} (hk : 0 < k) (hc : 0 < c) (idx : List ℤ) (times : List ℚ) (T : List (List ℚ)) :
    ((do let counts ← npBincountW idx times (k * c)
         let shaped ← reshape2 c counts
         assignAll k shaped : Py _) = .ok T) ↔
      (times.length = idx.length ∧ (∀ q ∈ idx, 0 ≤ q ∧ q < ((k * c : Nat) : ℤ)) ∧ T = timeTable k c idx times) := by
  constructor
  · intro h
    unfold npBincountW at h
    by_cases hneg : idx.any (fun x => decide (x < 0)) = true
    · rw [if_pos hneg] at h; cases h
    rw [if_neg hneg] at h
    by_cases hlen : times.length ≠ idx.length
    · rw [if_pos hlen] at h; cases h
    rw [if_neg hlen] at h
    simp only [Except.bind_ok'] at h
    unfold reshape2 at h
    split at h
    · cases h
    · rename_i hdiv
      simp only [Except.bind_ok', List.length_map, List.length_range] at h hdiv
      push Not at hdiv hlen
      have hdvd : c ∣ bincountSize idx (k * c) := Nat.dvd_of_mod_eq_zero hdiv.2
      have hclen : (chunks c ((List.range (bincountSize idx (k * c))).map (fun k : Nat =>
          (((idx.zip times).filter (fun p => decide (p.1 = (k : ℤ)))).map Prod.snd).sum))).length
          = bincountSize idx (k * c) / c := by simp [chunks]
      have hge : k ≤ bincountSize idx (k * c) / c := by
        rw [Nat.le_div_iff_mul_le hc]; exact le_bincountSize _ _
      obtain ⟨h1, h2⟩ := assignAll_ok hk (by rw [hclen]; exact hge) h
      rw [hclen] at h1
      have hsz : bincountSize idx (k * c) = k * c := by
        rw [← Nat.div_mul_cancel hdvd, h1]
      refine ⟨hlen, ?_, ?_⟩
      · intro q hq
        have h0 : 0 ≤ q := by
          by_contra hlt
          apply hneg; rw [List.any_eq_true]; exact ⟨q, hq, by simpa using hlt⟩
        refine ⟨h0, ?_⟩
        have := lt_bincountSize idx (k * c) hq
        rw [hsz] at this
        omega
      · rw [h2, hsz, chunks_map_range c k hc]; rfl
  · rintro ⟨hlen, hr, rfl⟩
    have hneg : ¬ idx.any (fun x => decide (x < 0)) = true := by
      rw [List.any_eq_true]; rintro ⟨q, hq, h⟩
      have := (hr q hq).1
      simp at h; omega
    have hsz : bincountSize idx (k * c) = k * c := bincountSize_eq _ _ (fun q hq => by
      have := hr q hq; omega)
    unfold npBincountW
    rw [if_neg hneg, if_neg (by simpa using hlen), hsz]
    simp only [Except.bind_ok']
    unfold reshape2
    rw [if_neg (by simp; omega)]
    simp only [Except.bind_ok']
    rw [chunks_map_range c k hc]
    exact assignAll_of_length (by simp)

/-- The bincount/reshape/assign pipeline, counts version. -/
theorem bincount_pipeline {k c : Nat} (hk : 0 < k) (hc : 0 < c) (idx : List ℤ) (M : List (List (List Nat))) :
    ((do let counts ← npBincount idx (k * c * c)
         let shaped ← reshape3 c c counts
         let m ← assignAll k shaped
         return fixDiagonal k c m : Py _) = .ok M) ↔
      ((∀ q ∈ idx, 0 ≤ q ∧ q < ((k * c * c : Nat) : ℤ)) ∧ M = transTable k c idx) := by
  have hcc : 0 < c * c := Nat.mul_pos hc hc
  have hchunks : ∀ f : Nat → Nat, (chunks (c * c) ((List.range (k * (c * c))).map f)).map (chunks c)
      = (List.range k).map (fun r => (List.range c).map (fun i => (List.range c).map
        (fun j => f ((r * c + i) * c + j)))) := by
    intro f
    rw [chunks_map_range (c * c) k hcc, List.map_map]
    apply List.map_congr_left
    intro r _
    simp only [Function.comp]
    rw [chunks_map_range c c hc]
    apply List.map_congr_left; intro i _
    apply List.map_congr_left; intro j _
    congr 1; ring
  constructor
  · intro h
    unfold npBincount at h
    by_cases hneg : idx.any (fun x => decide (x < 0)) = true
    · rw [if_pos hneg] at h; cases h
    rw [if_neg hneg] at h
    simp only [Except.bind_ok'] at h
    unfold reshape3 at h
    split at h
    · cases h
    · rename_i hdiv
      simp only [Except.bind_ok', List.length_map, List.length_range] at h hdiv
      push Not at hdiv
      set L := (chunks (c * c) ((List.range (bincountSize idx (k * c * c))).map (fun k : Nat =>
          (idx.filter (fun x => decide (x = (k : ℤ)))).length))).map (chunks c) with hL
      have hdvd : c * c ∣ bincountSize idx (k * c * c) := Nat.dvd_of_mod_eq_zero hdiv.2
      have hclen : L.length = bincountSize idx (k * c * c) / (c * c) := by simp [hL, chunks]
      have hge : k ≤ L.length := by
        rw [hclen, Nat.le_div_iff_mul_le hcc, ← Nat.mul_assoc]; exact le_bincountSize _ _
      cases hA : assignAll k L with
      | error e => rw [hA] at h; cases h
      | ok w =>
        rw [hA] at h
        have hM : M = fixDiagonal k c w := by cases h; rfl
        obtain ⟨h1, h2⟩ := assignAll_ok hk hge hA
        rw [hclen] at h1
        have hsz : bincountSize idx (k * c * c) = k * c * c := by
          rw [← Nat.div_mul_cancel hdvd, h1]; ring
        refine ⟨?_, ?_⟩
        · intro q hq
          have h0 : 0 ≤ q := by
            by_contra hlt
            apply hneg; rw [List.any_eq_true]; exact ⟨q, hq, by simpa using hlt⟩
          refine ⟨h0, ?_⟩
          have := lt_bincountSize idx (k * c * c) hq
          rw [hsz] at this
          omega
        · rw [hM, h2, hL, hsz, Nat.mul_assoc, hchunks]; exact fixDiagonal_closed k c hc (codeCount idx)
  · rintro ⟨hr, rfl⟩
    have hneg : ¬ idx.any (fun x => decide (x < 0)) = true := by
      rw [List.any_eq_true]; rintro ⟨q, hq, h⟩
      have := (hr q hq).1
      simp at h; omega
    have hsz : bincountSize idx (k * c * c) = k * c * c := bincountSize_eq _ _ (fun q hq => by
      have := hr q hq; omega)
    unfold npBincount
    rw [if_neg hneg, hsz]
    simp only [Except.bind_ok']
    unfold reshape3
    rw [if_neg (by simp [Nat.mul_assoc]; omega)]
    simp only [Except.bind_ok']
    rw [Nat.mul_assoc, hchunks, assignAll_of_length (by simp)]
    simp only [Except.bind_ok']
    exact congrArg Except.ok (fixDiagonal_closed k c hc (codeCount idx))

/-- Residence times: when the computation returns, and what it returns. -/
theorem computeStateResTime_ok_iff {times : List ℚ} {rows : List (List ℤ)} {cols struct : List Nat} {k c : Nat}
    (hk : 0 < k) (hc : 0 < c) (hlast : pyGet struct (struct.length - 1) = .ok (k * c)) (T : List (List ℚ)) :
    computeStateResTime times rows cols struct k c = .ok T ↔
      ∃ idx, rows.mapM (rowIndex cols struct) = .ok idx ∧ times.length = idx.length ∧
        (∀ q ∈ idx, 0 ≤ q ∧ q < ((k * c : Nat) : ℤ)) ∧ T = timeTable k c idx times := by
  unfold computeStateResTime
  cases hidx : rows.mapM (rowIndex cols struct) with
  | error e =>
    constructor
    · intro h; cases h
    · rintro ⟨_, h, _⟩; cases h
  | ok idx =>
    rw [hlast]
    rw [show ((do let idx ← (Except.ok idx : Py (List ℤ))
                  let minlength ← (Except.ok (k * c) : Py Nat)
                  let counts ← npBincountW idx times minlength
                  let shaped ← reshape2 c counts
                  assignAll k shaped) = Except.ok T)
      ↔ ((do let counts ← npBincountW idx times (k * c)
             let shaped ← reshape2 c counts
             assignAll k shaped : Py _) = .ok T) from Iff.rfl]
    rw [bincountW_pipeline hk hc]
    constructor
    · intro h; exact ⟨idx, rfl, h⟩
    · rintro ⟨idx', h, h2⟩; cases h; exact h2

/-- Transition counts: when the computation returns, and what it returns. -/
theorem computeStateTransitions_ok_iff {i : Nat} {rows : List (List ℤ)} {cols struct : List Nat} {k c : Nat}
    (hk : 0 < k) (hc : 0 < c) (hlast : pyGet struct (struct.length - 1) = .ok (k * c * c)) (M : List (List (List Nat))) :
    computeStateTransitions i rows cols struct k c = .ok M ↔
      ∃ nexts idx, rows.mapM (fun row => pyGet row (row.length / 2 + i)) = .ok nexts ∧
        (((rows.zip nexts).filter (fun p => decide (0 ≤ p.2))).map Prod.fst).mapM (rowIndex cols struct) = .ok idx ∧
        (∀ q ∈ idx, 0 ≤ q ∧ q < ((k * c * c : Nat) : ℤ)) ∧ M = transTable k c idx := by
  unfold computeStateTransitions
  cases hn : rows.mapM (fun row => pyGet row (row.length / 2 + i)) with
  | error e =>
    constructor
    · intro h; cases h
    · rintro ⟨_, _, h, _⟩; cases h
  | ok nexts =>
    simp only [Except.bind_ok']
    cases hidx : (((rows.zip nexts).filter (fun p => decide (0 ≤ p.2))).map Prod.fst).mapM (rowIndex cols struct) with
    | error e =>
      constructor
      · intro h; cases h
      · rintro ⟨_, _, h, h2, _⟩; cases h; rw [hidx] at h2; cases h2
    | ok idx =>
      rw [hlast]
      simp only [Except.bind_ok']
      rw [bincount_pipeline hk hc]
      constructor
      · intro h; exact ⟨nexts, idx, rfl, hidx, h⟩
      · rintro ⟨nexts', idx', h, h2, h3⟩; cases h; rw [hidx] at h2; cases h2; exact h3

theorem maskRow_length_of {mask : List Bool} {r : List Nat} (h : r.length = mask.length) : (SetOfCims.maskRow mask r).length = mask.count true := by
  induction mask generalizing r with
  | nil => cases r <;> simp_all [SetOfCims.maskRow]
  | cons b mask ih =>
    cases r with
    | nil => simp at h
    | cons a r =>
      have := ih (r := r) (by simpa using h)
      unfold SetOfCims.maskRow at this ⊢
      cases b <;> simp_all

/-- With one state per selected parent nothing is broadcast. -/
theorem filterCims_exact {s : SetOfCims} {mask : List Bool} {comb : List Nat} (hcomb : comb.length = mask.count true) :
    s.filterCims mask comb = if mask.length ≤ 1 then .ok s.cims
      else if s.pCombs.any (fun r => decide (r.length ≠ mask.length)) then .error .indexError
      else if comb.length ≠ mask.count true then .error .valueError
      else
        let flat := (s.pCombs.zipIdx.filter (fun p => decide (SetOfCims.maskRow mask p.1 = comb))).map Prod.snd
        flat.mapM (pyGet s.cims) := by
  unfold SetOfCims.filterCims
  split
  · rfl
  · split
    · rfl
    · rename_i h
      rw [if_neg (fun hh => hh.1 hcomb), if_neg (by simpa using hcomb)]
      have : s.pCombs.zipIdx.filter (fun p => SetOfCims.rowEquals (SetOfCims.maskRow mask p.1) comb)
          = s.pCombs.zipIdx.filter (fun p => decide (SetOfCims.maskRow mask p.1 = comb)) := by
        apply List.filter_congr
        rintro ⟨w, j⟩ hw
        have hw := List.mem_of_getElem? (List.mem_zipIdx_iff_getElem?.1 hw)
        have hl : w.length = mask.length := by
          by_contra hne
          exact h (List.any_eq_true.2 ⟨w, hw, by simpa using hne⟩)
        unfold SetOfCims.rowEquals
        rw [if_pos ((maskRow_length_of hl).trans hcomb.symm)]
      rw [this]

end PyCTBN
