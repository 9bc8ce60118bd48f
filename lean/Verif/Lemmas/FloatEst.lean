import Verif.Lemmas.Float
import Verif.Props.ReturnExact

/-! # The floating-point estimation as the exact one with other sums -/

namespace PyCTBN
open Spec

/-! ## Row indexes are exact -/

theorem truncInt_nat (n : Nat) : truncInt (n : ℚ) = n := by
  unfold truncInt
  rw [if_pos (Nat.cast_nonneg n)]
  show ⌊(n : ℚ)⌋ = _
  exact Int.floor_natCast n

theorem index_terms {rnd : ℚ → ℚ} {N c : Nat} (hex : ExactInts N rnd) (hc : 0 < c) (hcN : c ≤ N) :
    ∀ (struct vs : List Nat), (∀ s ∈ struct, c ∣ s) → (List.zipWith (fun v s => v * s) vs struct).sum ≤ N →
      List.zipWith (fun (v : ℤ) (s : Nat) => rnd (rnd ((v * (s : ℤ) : ℤ) : ℚ) / rnd (c : ℚ))) (vs.map (fun (v : Nat) => (v : ℤ))) struct
        = (List.zipWith (fun v s => v * (s / c)) vs struct).map (fun n : Nat => (n : ℚ) * 1) ∧
      (List.zipWith (fun (v : ℤ) (s : Nat) => v * (s : ℤ)) (vs.map (fun (v : Nat) => (v : ℤ))) struct).sum
        = ((c * (List.zipWith (fun v s => v * (s / c)) vs struct).sum : Nat) : ℤ) ∧
      (List.zipWith (fun v s => v * s) vs struct).sum = c * (List.zipWith (fun v s => v * (s / c)) vs struct).sum := by
  intro struct
  induction struct with
  | nil => intro vs _ _; simp
  | cons s struct ih =>
    intro vs hd hN
    cases vs with
    | nil => simp
    | cons v vs =>
      simp only [List.zipWith_cons_cons, List.sum_cons] at hN
      obtain ⟨d, rfl⟩ := hd s (by simp)
      obtain ⟨i1, i2, i3⟩ := ih vs (fun s hs => hd s (by simp [hs])) (by omega)
      have hcd : c * d / c = d := Nat.mul_div_cancel_left d hc
      have hvd : v * d ≤ v * (c * d) := Nat.mul_le_mul_left _ (Nat.le_mul_of_pos_left d hc)
      have hterm : rnd (rnd (((v : ℤ) * ((c * d : Nat) : ℤ) : ℤ) : ℚ) / rnd (c : ℚ)) = ((v * d : Nat) : ℚ) := by
        have e1 := hex ((v * (c * d) : Nat) : ℤ) (by rw [Int.natAbs_natCast]; omega)
        have e2 := hex (c : ℤ) (by rw [Int.natAbs_natCast]; omega)
        have e3 := hex ((v * d : Nat) : ℤ) (by rw [Int.natAbs_natCast]; omega)
        rw [show (v : ℤ) * ((c * d : Nat) : ℤ) = ((v * (c * d) : Nat) : ℤ) by push_cast; ring, e1]
        rw [Int.cast_natCast] at e2
        rw [e2]
        have hc' : (c : ℚ) ≠ 0 := by exact_mod_cast hc.ne'
        have : (((v * (c * d) : Nat) : ℤ) : ℚ) / (c : ℚ) = (((v * d : Nat) : ℤ) : ℚ) := by
          push_cast; field_simp
        rw [this, e3, Int.cast_natCast]
      simp only [List.map_cons, List.zipWith_cons_cons, List.sum_cons, hterm, i1, i2, i3, hcd, mul_one, true_and]
      constructor
      · push_cast; ring
      · ring

/-- The index of a row of natural numbers is computed exactly while the products stay in the exact range. -/
theorem rowIndexF_eq {rnd : ℚ → ℚ} {N c : Nat} (hex : ExactInts N rnd) (hc : 0 < c) (hcN : c ≤ N) {cols struct vs : List Nat} {row : List ℤ}
    (hsel : selectCols row cols = .ok (vs.map (fun (v : Nat) => (v : ℤ)))) (h0 : pyGet struct 0 = .ok c) (hd : ∀ s ∈ struct, c ∣ s)
    (hN : (List.zipWith (fun v s => v * s) vs struct).sum ≤ N) : rowIndexF rnd cols struct row = rowIndex cols struct row := by
  obtain ⟨i1, i2, i3⟩ := index_terms hex hc hcN struct vs hd hN
  have hsum : (List.zipWith (fun v s => v * (s / c)) vs struct).sum ≤ N := by
    rw [i3] at hN
    exact (Nat.le_mul_of_pos_left _ hc).trans hN
  unfold rowIndexF rowIndex
  rw [hsel, h0]
  simp only [Except.bind_ok', Except.pure_eq_ok', Except.ok.injEq]
  rw [i1, i2, fsum_exact (N := N) (d := 1) (by
    intro z hz
    have := hex (z : ℤ) (by simpa using hz)
    simpa using this) _ hsum, mul_one, truncInt_nat]
  push_cast
  rw [Int.mul_tdiv_cancel_left]
  omega

theorem cumprod_dvd (c : Nat) (ps : List Nat) : ∀ s ∈ cumprod (c :: ps), c ∣ s := by
  have key : ∀ (ps : List Nat) (acc : Nat), c ∣ acc → ∀ s ∈ cumprodFrom acc ps, c ∣ s := by
    intro ps
    induction ps with
    | nil => intro acc _ s hs; cases hs
    | cons p ps ih =>
      intro acc ha s hs
      simp only [cumprodFrom, List.mem_cons] at hs
      rcases hs with rfl | hs
      · exact Dvd.dvd.mul_right ha p
      · exact ih _ (Dvd.dvd.mul_right ha p) s hs
  intro s hs
  simp only [cumprod, cumprodFrom, Nat.one_mul, List.mem_cons] at hs
  rcases hs with rfl | hs
  · exact dvd_refl _
  · exact key ps c (dvd_refl _) s hs

theorem zipWith_cumprod_nat (acc : Nat) (ps us : List Nat) :
    (List.zipWith (fun v s => v * s) us (cumprodFrom acc ps)).sum = strideSum acc ps us := by
  have := zipWith_cumprod acc ps us
  have e : (List.zipWith (fun (v : ℤ) (s : Nat) => v * (s : ℤ)) (us.map (fun (v : Nat) => (v : ℤ))) (cumprodFrom acc ps)).sum
      = (((List.zipWith (fun v s => v * s) us (cumprodFrom acc ps)).sum : Nat) : ℤ) := by
    clear this
    generalize cumprodFrom acc ps = l
    induction us generalizing l with
    | nil => simp
    | cons u us ih =>
      cases l with
      | nil => simp
      | cons s l => simp only [List.map_cons, List.zipWith_cons_cons, List.sum_cons, ih]; push_cast; ring
  rw [e] at this
  exact_mod_cast this

/-! ## Bins as lists -/

/-- The weights of each bin. -/
def binLists {α : Type _} (xs : List ℤ) (ws : List α) (m : Nat) : Py (List (List α)) :=
  if xs.any (fun x => decide (x < 0)) then .error .valueError
  else if ws.length ≠ xs.length then .error .valueError
  else .ok ((List.range (bincountSize xs m)).map (fun k : Nat => (((xs.zip ws).filter (fun p => decide (p.1 = (k : ℤ)))).map Prod.snd)))

theorem npBincountW_bins {α : Type _} (f : α → ℚ) (xs : List ℤ) (ws : List α) (m : Nat) :
    npBincountW xs (ws.map f) m = (binLists xs ws m).map (List.map (fun l => (l.map f).sum)) := by
  unfold npBincountW binLists
  rw [List.length_map]
  split
  · rfl
  · split
    · rfl
    · simp only [Except.map, Except.ok.injEq, List.map_map]
      apply List.map_congr_left
      intro k _
      simp only [Function.comp]
      rw [List.zip_map_right, List.filter_map, List.map_map, List.map_map]
      rfl

theorem npBincountF_bins {α : Type _} (rnd : ℚ → ℚ) (f : α → ℚ) (xs : List ℤ) (ws : List α) (m : Nat) :
    npBincountF rnd xs (ws.map f) m = (binLists xs ws m).map (List.map (fun l => fsum rnd (l.map f))) := by
  unfold npBincountF binLists
  rw [List.length_map]
  split
  · rfl
  · split
    · rfl
    · simp only [Except.map, Except.ok.injEq, List.map_map]
      apply List.map_congr_left
      intro k _
      simp only [Function.comp]
      rw [List.zip_map_right, List.filter_map, List.map_map, List.map_map]
      rfl

theorem binLists_sub {α : Type _} {xs : List ℤ} {ws : List α} {m : Nat} {ls : List (List α)} (h : binLists xs ws m = .ok ls) :
    ∀ l ∈ ls, l.Sublist ws := by
  unfold binLists at h
  split at h
  · cases h
  · split at h
    · cases h
    · cases h
      intro l hl
      obtain ⟨k, -, rfl⟩ := List.mem_map.1 hl
      rename_i hlen
      have h1 : ((xs.zip ws).filter (fun p => decide (p.1 = (k : ℤ)))).Sublist (xs.zip ws) := List.filter_sublist
      have h2 := h1.map Prod.snd
      rwa [List.map_snd_zip (by simp at hlen; omega)] at h2

theorem chunks_map {α β : Type _} (f : α → β) (c : Nat) (l : List α) : chunks c (l.map f) = (chunks c l).map (List.map f) := by
  unfold chunks
  rw [List.length_map, List.map_map]
  apply List.map_congr_left
  intro i _
  simp [List.map_take, List.map_drop]

theorem reshape2_map {α β : Type _} (f : α → β) (c : Nat) (l : List α) :
    reshape2 c (l.map f) = (reshape2 c l).map (List.map (List.map f)) := by
  unfold reshape2
  rw [List.length_map]
  split
  · rfl
  · simp [Except.map, chunks_map]

theorem assignAll_map {α β : Type _} (f : α → β) (k : Nat) (l : List α) : assignAll k (l.map f) = (assignAll k l).map (List.map f) := by
  unfold assignAll
  rw [List.length_map]
  split
  · rfl
  · cases l with
    | nil => rfl
    | cons a l =>
      cases l with
      | nil => simp [Except.map]
      | cons b l => rfl

theorem reshape2_mem {α : Type _} {c : Nat} {l : List α} {ls : List (List α)} (h : reshape2 c l = .ok ls) : ∀ r ∈ ls, ∀ a ∈ r, a ∈ l := by
  unfold reshape2 at h
  split at h
  · cases h
  · cases h
    intro r hr a ha
    obtain ⟨i, -, rfl⟩ := List.mem_map.1 hr
    exact List.mem_of_mem_drop (List.mem_of_mem_take ha)

theorem assignAll_mem {α : Type _} {k : Nat} {l ls : List α} (h : assignAll k l = .ok ls) : ∀ a ∈ ls, a ∈ l := by
  unfold assignAll at h
  split at h
  · cases h; exact fun a ha => ha
  · split at h
    · cases h
      intro a ha
      rw [(List.mem_replicate.1 ha).2]
      simp
    · cases h

/-- The weights of every entry of the residence-time table. -/
def timeBins {α : Type _} (ws : List α) (trajectory : List (List ℤ)) (cols struct : List Nat) (k c : Nat) : Py (List (List (List α))) := do
  let idx ← trajectory.mapM (rowIndex cols struct)
  let minlength ← pyGet struct (struct.length - 1)
  let bins ← binLists idx ws minlength
  let shaped ← reshape2 c bins
  assignAll k shaped

theorem resTime_bins {α : Type _} (f : α → ℚ) (ws : List α) (trajectory : List (List ℤ)) (cols struct : List Nat) (k c : Nat) :
    computeStateResTime (ws.map f) trajectory cols struct k c
      = (timeBins ws trajectory cols struct k c).map (List.map (List.map (fun l => (l.map f).sum))) := by
  unfold computeStateResTime timeBins
  cases trajectory.mapM (rowIndex cols struct) with
  | error e => rfl
  | ok idx =>
    cases pyGet struct (struct.length - 1) with
    | error e => rfl
    | ok m =>
      simp only [Except.bind_ok']
      rw [npBincountW_bins f]
      cases binLists idx ws m with
      | error e => rfl
      | ok bins =>
        simp only [Except.bind_ok', Except.map]
        rw [reshape2_map]
        cases reshape2 c bins with
        | error e => rfl
        | ok sh =>
          simp only [Except.map, Except.bind_ok']
          rw [assignAll_map]
          rfl

theorem resTimeF_bins {α : Type _} (rnd : ℚ → ℚ) (f : α → ℚ) (ws : List α) (trajectory : List (List ℤ)) (cols struct : List Nat) (k c : Nat)
    (hidx : trajectory.mapM (rowIndexF rnd cols struct) = trajectory.mapM (rowIndex cols struct)) :
    computeStateResTimeF rnd (ws.map f) trajectory cols struct k c
      = (timeBins ws trajectory cols struct k c).map (List.map (List.map (fun l => fsum rnd (l.map f)))) := by
  unfold computeStateResTimeF timeBins
  rw [hidx]
  cases trajectory.mapM (rowIndex cols struct) with
  | error e => rfl
  | ok idx =>
    cases pyGet struct (struct.length - 1) with
    | error e => rfl
    | ok m =>
      simp only [Except.bind_ok']
      rw [npBincountF_bins rnd f]
      cases binLists idx ws m with
      | error e => rfl
      | ok bins =>
        simp only [Except.bind_ok', Except.map]
        rw [reshape2_map]
        cases reshape2 c bins with
        | error e => rfl
        | ok sh =>
          simp only [Except.map, Except.bind_ok']
          rw [assignAll_map]
          rfl

theorem timeBins_sub {α : Type _} {ws : List α} {trajectory : List (List ℤ)} {cols struct : List Nat} {k c : Nat} {B : List (List (List α))}
    (h : timeBins ws trajectory cols struct k c = .ok B) : ∀ r ∈ B, ∀ l ∈ r, l.Sublist ws := by
  unfold timeBins at h
  cases h1 : trajectory.mapM (rowIndex cols struct) with
  | error e => rw [h1] at h; cases h
  | ok idx =>
    rw [h1] at h
    simp only [Except.bind_ok'] at h
    cases h2 : pyGet struct (struct.length - 1) with
    | error e => rw [h2] at h; cases h
    | ok m =>
      rw [h2] at h
      simp only [Except.bind_ok'] at h
      cases h3 : binLists idx ws m with
      | error e => rw [h3] at h; cases h
      | ok bins =>
        rw [h3] at h
        simp only [Except.bind_ok'] at h
        cases h4 : reshape2 c bins with
        | error e => rw [h4] at h; cases h
        | ok sh =>
          rw [h4] at h
          simp only [Except.bind_ok'] at h
          intro r hr l hl
          exact binLists_sub h3 l (reshape2_mem h4 r (assignAll_mem h r hr) l hl)

/-- The floating-point estimation, unfolded as `estimate_unfold`. -/
theorem estimateF_unfold {s : Structure} {g : NetworkGraph} (h : Reach s g) {n : Label} (hn : n ∈ s.labels) :
    ∃ (c i : Nat) (ps is : List Nat), s.getStatesNumber n = .ok c ∧ s.getNodeIndx n = .ok i ∧
      ps.map Except.ok = (parentsOf g n).map s.getStatesNumber ∧ is.map Except.ok = (parentsOf g n).map s.getNodeIndx ∧
      ∀ (rnd : ℚ → ℚ) (t : Trajectory), ParamsEst.estimateF rnd t g n =
        (computeStateResTimeF rnd t.times t.trajectory (i :: is) (buildTimeScalarIndexing c ps) ps.prod c >>= fun T =>
          computeStateTransitionsF rnd i t.rows ((i + s.total) :: i :: is) (buildTransitionScalarIndexing c ps) ps.prod c >>= fun M =>
            Except.ok ⟨n, ps, c, buildPCombs ps, false, List.zipWith (Cim.buildF rnd) T M⟩) := by
  obtain ⟨hI, hs⟩ := h.inv
  subst hs
  obtain ⟨g', d, k1, k2, k3, k4, k5, k6, k7, k8, k9⟩ := fastInit_spec hI hn
  obtain ⟨c, i, e1, e2, e3, e4, e5, e6, e7⟩ := k9.nodeData
  have hpar : d.info.parents = parentsOf g n := by
    rw [k8, parentsOf]
    apply List.filter_congr; intro l _
    simp [NetworkGraph.hasEdge, DiGraph.hasEdge]
  refine ⟨c, i, d.info.vals, d.info.indxs, e1, e2, hpar ▸ k9.vals, hpar ▸ k9.indxs, ?_⟩
  intro rnd t
  have hst : g'.getStatesNumber n = .ok c := (k7 n hn).2.trans e1
  have hix : g'.getNodeIndx n = .ok i := (k7 n hn).1.trans e2
  have hcomb : (SetOfCims.new n d.info.vals c d.pCombs).combsNumber = d.info.vals.prod := by
    unfold SetOfCims.combsNumber SetOfCims.new
    by_cases hv : d.info.vals = [] <;> simp [hv]
  have hfi : (ParamsEst.new t g').fastInit n
      = .ok ⟨t, g', some (SetOfCims.new n d.info.vals c d.pCombs)⟩ := by
    simp only [ParamsEst.fastInit, ParamsEst.new, k4, hst]; rfl
  unfold ParamsEst.estimateF
  rw [k1]
  simp only [Except.bind_ok', hfi]
  have hcp : (⟨t, g', some (SetOfCims.new n d.info.vals c d.pCombs)⟩ : ParamsEst).computeParametersF rnd n =
      (computeStateResTimeF rnd t.times t.trajectory d.timeFilter d.timeIdx d.info.vals.prod c >>= fun T =>
        computeStateTransitionsF rnd i t.rows d.transFilter d.transIdx d.info.vals.prod c >>= fun M =>
          Except.ok (⟨t, g', some ((SetOfCims.new n d.info.vals c d.pCombs).buildCimsF rnd T M)⟩,
            (SetOfCims.new n d.info.vals c d.pCombs).buildCimsF rnd T M)) := by
    simp only [ParamsEst.computeParametersF, hix, Except.bind_ok', k4, hcomb]
    rfl
  rw [hcp, e3, e4, e5, e6, e7]
  simp only [buildTimeColumnsFiltering, buildTransitionFiltering]
  cases computeStateResTimeF rnd t.times t.trajectory (i :: d.info.indxs) (buildTimeScalarIndexing c d.info.vals)
      d.info.vals.prod c with
  | error e => rfl
  | ok T =>
    simp only [Except.bind_ok']
    cases computeStateTransitionsF rnd i t.rows ((i + g.struct.total) :: i :: d.info.indxs)
      (buildTransitionScalarIndexing c d.info.vals) d.info.vals.prod c with
    | error e => rfl
    | ok M => simp [SetOfCims.buildCimsF, SetOfCims.new]

end PyCTBN
