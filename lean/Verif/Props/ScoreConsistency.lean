import Verif.Spec.ScoreConsistency
import Verif.Lemmas.ScoreSplit
import Verif.Props.LocalOpt
import Verif.Props.ConsistencyDemo

/-!
# The score and one more parent, as data grow (C166 ...)
-/

namespace PyCTBN
open Spec SearchEnv Filter Topology

/-! ## Assignments -/

theorem assignments_append (ps qs : List Nat) :
    assignments (ps ++ qs) = (assignments ps).flatMap (fun u => (assignments qs).map (fun v => u ++ v)) := by
  induction ps with
  | nil => simp [assignments]
  | cons p ps ih =>
    simp only [List.cons_append, assignments, ih, List.map_flatMap, List.flatMap_assoc, List.map_map, List.flatMap_map]
    rfl

theorem assignments_length {ps u : List Nat} (h : u ∈ assignments ps) : u.length = ps.length := (mem_assignments.1 h).length_eq

theorem assignments_lt {L : List Label} {c : Nat} {u : List Nat} (h : u ∈ assignments (L.map (fun _ => c))) : u.length = L.length ∧ ∀ v ∈ u, v < c := by
  refine ⟨by simpa using assignments_length h, ?_⟩
  have := mem_assignments.1 h
  clear h
  induction L generalizing u with
  | nil =>
    cases this
    simp
  | cons l L ih =>
    cases this with
    | cons h1 h2 =>
      intro v hv
      rcases List.mem_cons.1 hv with rfl | hv
      · exact h1
      · exact ih h2 v hv

theorem lt_assignments {L : List Label} {c : Nat} {a : Label → Nat} (h : ∀ q, a q < c) : L.map a ∈ assignments (L.map (fun _ => c)) := by
  rw [mem_assignments]
  induction L with
  | nil => exact .nil
  | cons l L ih => exact .cons (h l) ih

/-- Every assignment is given by a function. -/
theorem exists_assign {L : List Label} (hnd : L.Nodup) {c : Nat} (hc : 0 < c) {u : List Nat} (hl : u.length = L.length) (hlt : ∀ v ∈ u, v < c) :
    ∃ a : Label → Nat, (∀ q, a q < c) ∧ L.map a = u := by
  induction L generalizing u with
  | nil =>
    refine ⟨fun _ => 0, fun _ => hc, ?_⟩
    rw [List.length_nil, List.length_eq_zero_iff] at hl
    simp [hl]
  | cons l L ih =>
    cases u with
    | nil => simp at hl
    | cons v u =>
      obtain ⟨h1, h2⟩ := List.nodup_cons.1 hnd
      obtain ⟨a, ha, hm⟩ := ih h2 (u := u) (by simpa using hl) (fun w hw => hlt w (by simp [hw]))
      refine ⟨Function.update a l v, fun q => ?_, ?_⟩
      · by_cases h : q = l
        · subst h; simp [hlt v (by simp)]
        · simp [Function.update_of_ne h, ha q]
      · rw [List.map_cons, Function.update_self, ← hm]
        congr 1
        refine List.map_congr_left (fun q hq => Function.update_of_ne ?_ _ _)
        rintro rfl
        exact h1 hq

/-! ## The order of the parents -/

theorem ordered_cons {s : Structure} (hnd : s.labels.Nodup) {K : List Label} {p : Label} (hp : p ∈ s.labels) (hpK : p ∉ K) :
    ∃ L1 L2 : List Label, ordered s K = L1 ++ L2 ∧ ordered s (p :: K) = L1 ++ p :: L2 ∧ (L1 ++ p :: L2).Nodup := by
  obtain ⟨A, B, hAB⟩ := List.append_of_mem hp
  rw [hAB] at hnd
  obtain ⟨n1, n2, n3⟩ := List.nodup_append.1 hnd
  have hpA : p ∉ A := fun h => n3 p h p (by simp) rfl
  have hpB : p ∉ B := (List.nodup_cons.1 n2).1
  have key : ∀ C : List Label, p ∉ C → C.filter (fun l => decide (l ∈ p :: K)) = C.filter (fun l => decide (l ∈ K)) := by
    intro C hC
    apply List.filter_congr
    intro l hl
    have : l ≠ p := fun h => hC (h ▸ hl)
    simp [this]
  refine ⟨A.filter (fun l => decide (l ∈ K)), B.filter (fun l => decide (l ∈ K)), ?_, ?_, ?_⟩
  · unfold ordered
    rw [hAB, List.filter_append, List.filter_cons_of_neg (by simpa using hpK)]
  · unfold ordered
    rw [hAB, List.filter_append, List.filter_cons_of_pos (by simp), key A hpA, key B hpB]
  · rw [List.nodup_append]
    refine ⟨n1.filter _, List.nodup_cons.2 ⟨fun h => hpB (List.mem_filter.1 h).1, (List.nodup_cons.1 n2).2.filter _⟩, fun x hx y hy => ?_⟩
    refine n3 x (List.mem_filter.1 hx).1 y ?_
    rcases List.mem_cons.1 hy with rfl | hy
    · simp
    · exact List.mem_cons_of_mem _ (List.mem_filter.1 hy).1

/-! ## Splitting the data -/

theorem rowMatches_split {s : Structure} {n p : Label} {L1 L2 : List Label} {u1 u2 : List Nat} (hl : u1.length = L1.length) (x z : Nat) (r : List ℤ) :
    rowMatches s n (L1 ++ p :: L2) x (u1 ++ z :: u2) r = (rowMatches s n (L1 ++ L2) x (u1 ++ u2) r && decide (stateOf s r p = some (z : ℤ))) := by
  have h1 : (L1.map (stateOf s r)).length = (u1.map (fun v : Nat => some (v : ℤ))).length := by simp [hl]
  unfold rowMatches
  rw [Bool.eq_iff_iff]
  simp only [Bool.and_eq_true, decide_eq_true_eq, List.map_append, List.map_cons]
  have k1 : ∀ A B : List (Option ℤ), L1.map (stateOf s r) ++ A = u1.map (fun v : Nat => some (v : ℤ)) ++ B ↔
      L1.map (stateOf s r) = u1.map (fun v : Nat => some (v : ℤ)) ∧ A = B :=
    fun A B => ⟨fun h => List.append_inj h h1, fun h => by rw [h.1, h.2]⟩
  rw [k1, k1, List.cons.injEq]
  tauto

theorem sum_filter_split {β : Type} (l : List β) (q : β → Bool) (v : β → ℚ) (st : β → Option ℤ) (c : Nat) (h : ∀ r ∈ l, ∃ z : Nat, st r = some (z : ℤ) ∧ z < c) :
    ((l.filter q).map v).sum = ∑ z ∈ Finset.range c, ((l.filter (fun r => q r && decide (st r = some (z : ℤ)))).map v).sum := by
  induction l with
  | nil => simp
  | cons r l ih =>
    have ih := ih (fun r hr => h r (by simp [hr]))
    obtain ⟨z, hz, hzc⟩ := h r (by simp)
    by_cases hq : q r
    · rw [List.filter_cons_of_pos hq, List.map_cons, List.sum_cons, ih]
      have e : ∀ z' : Nat, (((r :: l).filter (fun r => q r && decide (st r = some (z' : ℤ)))).map v).sum =
          (if z' = z then v r else 0) + ((l.filter (fun r => q r && decide (st r = some (z' : ℤ)))).map v).sum := by
        intro z'
        by_cases hzz : z' = z
        · rw [List.filter_cons_of_pos (by simp [hq, hz, hzz]), if_pos hzz, List.map_cons, List.sum_cons]
        · rw [List.filter_cons_of_neg (by simp only [hq, hz, Bool.true_and, decide_eq_true_eq, Option.some.injEq]; omega), if_neg hzz, zero_add]
      rw [Finset.sum_congr rfl (fun z' _ => e z'), Finset.sum_add_distrib, Finset.sum_ite_eq' _ z, if_pos (Finset.mem_range.2 hzc)]
    · rw [List.filter_cons_of_neg hq, ih]
      refine Finset.sum_congr rfl (fun z' _ => ?_)
      rw [List.filter_cons_of_neg (by simp [hq])]

variable {s : Structure} {t : Trajectory} {c : Nat}

theorem residence_split (ht : DataOK s t) {n p : Label} (hp : p ∈ s.labels) (hcp : s.getStatesNumber p = .ok c) {L1 L2 : List Label} {u1 u2 : List Nat}
    (hl : u1.length = L1.length) (x : Nat) :
    residence s t n (L1 ++ L2) x (u1 ++ u2) = ∑ z ∈ Finset.range c, residence s t n (L1 ++ p :: L2) x (u1 ++ z :: u2) := by
  unfold residence
  rw [sum_filter_split (t.times.zip t.rows) _ Prod.fst (fun r => stateOf s r.2 p) c (fun r hr => ht.cur r.2 (List.of_mem_zip hr).2 p hp c hcp)]
  refine Finset.sum_congr rfl (fun z _ => ?_)
  simp only [rowMatches_split hl]

theorem transitions_split (ht : DataOK s t) {n p : Label} (hp : p ∈ s.labels) (hcp : s.getStatesNumber p = .ok c) {L1 L2 : List Label} {u1 u2 : List Nat}
    (hl : u1.length = L1.length) (x y : Nat) :
    transitions s t n (L1 ++ L2) x y (u1 ++ u2) = ∑ z ∈ Finset.range c, transitions s t n (L1 ++ p :: L2) x y (u1 ++ z :: u2) := by
  have h := sum_filter_split t.rows (fun r => rowMatches s n (L1 ++ L2) x (u1 ++ u2) r && decide (nextOf s r n = some (y : ℤ))) (fun _ => 1)
    (fun r => stateOf s r p) c (fun r hr => ht.cur r hr p hp c hcp)
  have e : ∀ l : List (List ℤ), (l.map (fun _ => (1 : ℚ))).sum = l.length := fun l => by simp
  simp only [e] at h
  unfold transitions
  have h2 : ((t.rows.filter (fun r => rowMatches s n (L1 ++ L2) x (u1 ++ u2) r && decide (nextOf s r n = some (y : ℤ)))).length : ℚ) =
      ((∑ z ∈ Finset.range c, (t.rows.filter (fun r => rowMatches s n (L1 ++ p :: L2) x (u1 ++ z :: u2) r && decide (nextOf s r n = some (y : ℤ)))).length : ℕ) : ℚ) := by
    rw [h]
    push_cast
    refine Finset.sum_congr rfl (fun z _ => ?_)
    congr 2
    apply List.filter_congr
    intro r _
    rw [rowMatches_split hl, Bool.and_right_comm]
  exact_mod_cast h2

/-- Nothing happens in no time. -/
theorem transitions_zero (ht : DataOK s t) (hpos : ∀ d ∈ t.times, 0 < d) {n : Label} {L : List Label} {x : Nat} {u : List Nat} (h : residence s t n L x u = 0)
    (y : Nat) : transitions s t n L x y u = 0 := by
  unfold transitions
  rw [List.length_eq_zero_iff, List.filter_eq_nil_iff]
  intro r hr hm
  simp only [Bool.and_eq_true] at hm
  obtain ⟨i, hi, rfl⟩ := List.mem_iff_getElem.1 hr
  have hi' : i < t.times.length := by rw [ht.len]; exact hi
  have hz : (t.times[i], t.rows[i]) ∈ (t.times.zip t.rows).filter (fun r => rowMatches s n L x u r.2) := by
    refine List.mem_filter.2 ⟨?_, hm.1⟩
    refine List.mem_iff_getElem.2 ⟨i, by simp [hi, hi'], by simp⟩
  have h0 := (List.all_zero_of_le_zero_le_of_sum_eq_zero (l := ((t.times.zip t.rows).filter (fun r : ℚ × List ℤ => rowMatches s n L x u r.2)).map Prod.fst) (fun d hd => by
    obtain ⟨r, hr, rfl⟩ := List.mem_map.1 hd
    exact (hpos _ (List.of_mem_zip (List.mem_filter.1 hr).1).1).le) h) (List.mem_map_of_mem hz)
  have := hpos _ (List.getElem_mem hi')
  simp only at h0
  linarith

/-! ## The likelihood as a sum over cells -/

theorem sum_map_flatMap {β γ : Type} (l : List β) (g : β → List γ) (f : γ → ℝ) : ((l.flatMap g).map f).sum = (l.map (fun b => ((g b).map f).sum)).sum := by
  induction l with
  | nil => simp
  | cons b l ih => simp [List.flatMap_cons, ih]

/-- The log marginal likelihood of one cell. -/
noncomputable def logCell (s : Structure) (t : Trajectory) (c : Nat) (τ α : ℝ) (n : Label) (L : List Label) (x : Nat) (u : List Nat) : ℝ :=
  Real.log (cellMarginal τ α (α / (c - 1)) ((Finset.range c).erase x) (fun y => transitions s t n L x y u) (residence s t n L x u : ℚ))

theorem marginal_cells (s : Structure) (t : Trajectory) (c : Nat) (τ α : ℝ) (n : Label) (L : List Label) (u : List Nat) :
    (observed s t n L c u).marginal τ α c = ∏ x ∈ Finset.range c,
      cellMarginal τ α (α / (c - 1)) ((Finset.range c).erase x) (fun y => transitions s t n L x y u) (residence s t n L x u : ℚ) := by
  unfold Stats.marginal cellMarginal
  refine Finset.prod_congr rfl (fun x _ => ?_)
  have e0 : ∀ y ∈ (Finset.range c).erase x, (observed s t n L c u).count x y = transitions s t n L x y u :=
    fun y hy => if_neg (fun e => (Finset.mem_erase.1 hy).1 e.symm)
  have e1 : (observed s t n L c u).count x x = ∑ y ∈ (Finset.range c).erase x, transitions s t n L x y u := if_pos rfl
  have e2 : ∑ y ∈ (Finset.range c).erase x, (observed s t n L c u).count x y = ∑ y ∈ (Finset.range c).erase x, transitions s t n L x y u :=
    Finset.sum_congr rfl e0
  have e3 : ∏ y ∈ (Finset.range c).erase x, rising (α / (c - 1)) ((observed s t n L c u).count x y) =
      ∏ y ∈ (Finset.range c).erase x, rising (α / (c - 1)) (transitions s t n L x y u) := Finset.prod_congr rfl (fun y hy => by rw [e0 y hy])
  unfold targetMarginal
  rw [e1, e2, e3]
  rfl

theorem cell_pos (htimes : ∀ d ∈ t.times, 0 ≤ d) (hc : 2 ≤ c) {τ α : ℝ} (hτ : 0 < τ) (hα : 0 < α) (n : Label) (L : List Label) (x : Nat) (u : List Nat) :
    0 < cellMarginal τ α (α / (c - 1)) ((Finset.range c).erase x) (fun y => transitions s t n L x y u) (residence s t n L x u : ℚ) := by
  have hc' : (0 : ℝ) < (c : ℝ) - 1 := by
    have : (2 : ℝ) ≤ c := by exact_mod_cast hc
    linarith
  exact (log_cellMarginal hτ hα (by positivity) _ _ (by exact_mod_cast residence_nonneg htimes L x u)).1

theorem log_likelihood (htimes : ∀ d ∈ t.times, 0 ≤ d) (hc : 2 ≤ c) {τ α : ℝ} (hτ : 0 < τ) (hα : 0 < α) (n : Label) (K : List Label) :
    0 < likelihood s t c τ α n K.toFinset ∧ Real.log (likelihood s t c τ α n K.toFinset) =
      ∑ u ∈ (assignments ((ordered s K).map (fun _ => c))).toFinset, ∑ x ∈ Finset.range c, logCell s t c τ α n (ordered s K) x u := by
  have hord : ordered s K.toFinset.toList = ordered s K := ordered_congr (fun l _ => by simp)
  have e : likelihood s t c τ α n K.toFinset = ∏ u ∈ (assignments ((ordered s K).map (fun _ => c))).toFinset, ∏ x ∈ Finset.range c,
      cellMarginal τ α (α / (c - 1)) ((Finset.range c).erase x) (fun y => transitions s t n (ordered s K) x y u) (residence s t n (ordered s K) x u : ℚ) := by
    unfold likelihood
    rw [hord, List.prod_toFinset _ (assignments_nodup _)]
    congr 1
    exact List.map_congr_left (fun u _ => marginal_cells s t c τ α n _ u)
  have hp := fun u x => cell_pos (s := s) htimes hc hτ hα n (ordered s K) x u
  rw [e]
  refine ⟨Finset.prod_pos (fun u _ => Finset.prod_pos (fun x _ => hp u x)), ?_⟩
  rw [Real.log_prod (fun u _ => (Finset.prod_pos (fun x _ => hp u x)).ne')]
  refine Finset.sum_congr rfl (fun u _ => ?_)
  rw [Real.log_prod (fun x _ => (hp u x).ne')]
  rfl

/-- The likelihood with one more parent, cell by cell. -/
theorem log_likelihood_diff (htimes : ∀ d ∈ t.times, 0 ≤ d) (hc : 2 ≤ c) {τ α : ℝ} (hτ : 0 < τ) (hα : 0 < α)
    (n : Label) {K : List Label} {p : Label} {L1 L2 : List Label} (h1 : ordered s K = L1 ++ L2) (h2 : ordered s (p :: K) = L1 ++ p :: L2) :
    Real.log (likelihood s t c τ α n (insert p K.toFinset)) - Real.log (likelihood s t c τ α n K.toFinset) =
      ∑ u1 ∈ (assignments (L1.map (fun _ => c))).toFinset, ∑ u2 ∈ (assignments (L2.map (fun _ => c))).toFinset, ∑ x ∈ Finset.range c,
        (∑ z ∈ Finset.range c, logCell s t c τ α n (L1 ++ p :: L2) x (u1 ++ z :: u2) - logCell s t c τ α n (L1 ++ L2) x (u1 ++ u2)) := by
  have e1 : insert p K.toFinset = (p :: K).toFinset := by simp
  rw [e1, (log_likelihood htimes hc hτ hα n (p :: K)).2, (log_likelihood htimes hc hτ hα n K).2, h1, h2]
  have app : ∀ (A B : List Label) (f : List Nat → ℝ), ∑ u ∈ (assignments ((A ++ B).map (fun _ => c))).toFinset, f u =
      ∑ u1 ∈ (assignments (A.map (fun _ => c))).toFinset, ∑ u2 ∈ (assignments (B.map (fun _ => c))).toFinset, f (u1 ++ u2) := by
    intro A B f
    rw [List.sum_toFinset _ (assignments_nodup _), List.sum_toFinset _ (assignments_nodup _), List.map_append, assignments_append,
      sum_map_flatMap]
    congr 1
    apply List.map_congr_left
    intro u1 _
    rw [List.sum_toFinset _ (assignments_nodup _), List.map_map]
    rfl
  have con : ∀ (B : List Label) (f : List Nat → ℝ), ∑ u ∈ (assignments ((p :: B).map (fun _ => c))).toFinset, f u =
      ∑ u2 ∈ (assignments (B.map (fun _ => c))).toFinset, ∑ z ∈ Finset.range c, f (z :: u2) := by
    intro B f
    rw [Finset.sum_comm, List.sum_toFinset _ (assignments_nodup _), List.map_cons, assignments, sum_map_flatMap,
      ← List.toFinset_range, List.sum_toFinset _ List.nodup_range]
    congr 1
    apply List.map_congr_left
    intro z _
    rw [List.sum_toFinset _ (assignments_nodup _), List.map_map]
    rfl
  rw [app, app, ← Finset.sum_sub_distrib]
  refine Finset.sum_congr rfl (fun u1 _ => ?_)
  rw [con, ← Finset.sum_sub_distrib]
  refine Finset.sum_congr rfl (fun u2 _ => ?_)
  rw [Finset.sum_comm, ← Finset.sum_sub_distrib]

/-! ## Data observed `k` times -/

theorem logCell_repeated (ht : DataOK s t) (k : Nat) (τ α : ℝ) (n : Label) (L : List Label) (x : Nat) (u : List Nat) :
    logCell s (repeated t k) c τ α n L x u = Real.log (cellMarginal τ α (α / (c - 1)) ((Finset.range c).erase x)
      (fun y => k * transitions s t n L x y u) (k * (residence s t n L x u : ℚ))) := by
  unfold logCell
  simp only [transitions_repeated, residence_repeated s t ht.len]
  push_cast
  rfl

/-- The split of one cell by the states of `p`. -/
theorem cell_splitOK (ht : DataOK s t) (hpos : ∀ d ∈ t.times, 0 < d) (n p : Label) (L1 L2 : List Label) (x : Nat) (u1 u2 : List Nat) :
    SplitOK (Finset.range c) ((Finset.range c).erase x) (fun z y => transitions s t n (L1 ++ p :: L2) x y (u1 ++ z :: u2))
      (fun z => ((residence s t n (L1 ++ p :: L2) x (u1 ++ z :: u2) : ℚ) : ℝ)) where
  nonneg z _ := by exact_mod_cast residence_nonneg (fun d hd => (hpos d hd).le) _ _ _
  zero z _ h y _ := transitions_zero ht hpos (by exact_mod_cast h) y

theorem update_map {L1 L2 : List Label} {p : Label} (hnd : (L1 ++ p :: L2).Nodup) (a : Label → Nat) (z : Nat) :
    (L1 ++ p :: L2).map (Function.update a p z) = L1.map a ++ z :: L2.map a := by
  obtain ⟨-, n2, n3⟩ := List.nodup_append.1 hnd
  rw [List.map_append, List.map_cons, Function.update_self]
  congr 1
  · refine List.map_congr_left (fun q hq => Function.update_of_ne ?_ _ _)
    exact n3 q hq p (by simp)
  · congr 1
    refine List.map_congr_left (fun q hq => Function.update_of_ne ?_ _ _)
    rintro rfl
    exact (List.nodup_cons.1 n2).1 hq

/-- `Matters` and `Varies` in terms of cells. -/
theorem matters_iff_split (hc : 0 < c) {n p : Label} {K L1 L2 : List Label} (h2 : ordered s (p :: K) = L1 ++ p :: L2) (hnd : (L1 ++ p :: L2).Nodup) :
    (Matters s t n c K p ↔ ∃ u1 ∈ (assignments (L1.map (fun _ => c))).toFinset, ∃ u2 ∈ (assignments (L2.map (fun _ => c))).toFinset, ∃ x ∈ Finset.range c,
      SplitDiffers (Finset.range c) ((Finset.range c).erase x) (fun z y => transitions s t n (L1 ++ p :: L2) x y (u1 ++ z :: u2))
        (fun z => ((residence s t n (L1 ++ p :: L2) x (u1 ++ z :: u2) : ℚ) : ℝ))) ∧
    (Varies s t n c K p ↔ ∃ u1 ∈ (assignments (L1.map (fun _ => c))).toFinset, ∃ u2 ∈ (assignments (L2.map (fun _ => c))).toFinset, ∃ x ∈ Finset.range c,
      SplitVaries (Finset.range c) (fun z => ((residence s t n (L1 ++ p :: L2) x (u1 ++ z :: u2) : ℚ) : ℝ))) := by
  have htime : ∀ a z x, (givenWith s t n c K p a z).time x = residence s t n (L1 ++ p :: L2) x (L1.map a ++ z :: L2.map a) := by
    intro a z x
    unfold givenWith given
    rw [h2, update_map hnd]
    rfl
  have hcount : ∀ a z x y, y ≠ x → (givenWith s t n c K p a z).count x y = transitions s t n (L1 ++ p :: L2) x y (L1.map a ++ z :: L2.map a) := by
    intro a z x y hne
    unfold givenWith given
    rw [h2, update_map hnd]
    exact if_neg hne.symm
  have hfun : ∀ u1 ∈ (assignments (L1.map (fun _ => c))).toFinset, ∀ u2 ∈ (assignments (L2.map (fun _ => c))).toFinset,
      ∃ a : Label → Nat, (∀ q, a q < c) ∧ L1.map a = u1 ∧ L2.map a = u2 := by
    intro u1 hu1 u2 hu2
    obtain ⟨k1, k2⟩ := assignments_lt (List.mem_toFinset.1 hu1)
    obtain ⟨k3, k4⟩ := assignments_lt (List.mem_toFinset.1 hu2)
    have hnd' : (L1 ++ L2).Nodup := by
      refine hnd.sublist ?_
      exact (List.Sublist.refl L1).append (List.sublist_cons_self p L2)
    obtain ⟨a, ha, hm⟩ := exists_assign hnd' hc (u := u1 ++ u2) (by simp [k1, k3]) (fun v hv => (List.mem_append.1 hv).elim (k2 v) (k4 v))
    rw [List.map_append] at hm
    obtain ⟨m1, m2⟩ := List.append_inj hm (by simp [k1])
    exact ⟨a, ha, m1, m2⟩
  constructor
  · constructor
    · rintro ⟨a, ha, x, y, z, z', hx, hy, hyx, hz, hz', hp, hp', hne⟩
      rw [htime] at hp hp'
      rw [htime, htime, hcount _ _ _ _ hyx, hcount _ _ _ _ hyx] at hne
      refine ⟨L1.map a, List.mem_toFinset.2 (lt_assignments ha), L2.map a, List.mem_toFinset.2 (lt_assignments ha), x, Finset.mem_range.2 hx,
        y, Finset.mem_erase.2 ⟨hyx, Finset.mem_range.2 hy⟩, z, Finset.mem_range.2 hz, z', Finset.mem_range.2 hz', Rat.cast_pos.2 hp, Rat.cast_pos.2 hp', ?_⟩
      intro e
      apply hne
      have e' : ((transitions s t n (L1 ++ p :: L2) x y (L1.map a ++ z :: L2.map a) / residence s t n (L1 ++ p :: L2) x (L1.map a ++ z :: L2.map a) : ℚ) : ℝ) =
        ((transitions s t n (L1 ++ p :: L2) x y (L1.map a ++ z' :: L2.map a) / residence s t n (L1 ++ p :: L2) x (L1.map a ++ z' :: L2.map a) : ℚ) : ℝ) := by
        push_cast; exact e
      exact_mod_cast e'
    · rintro ⟨u1, hu1, u2, hu2, x, hx, y, hy, z, hz, z', hz', hp, hp', hne⟩
      obtain ⟨a, ha, rfl, rfl⟩ := hfun u1 hu1 u2 hu2
      obtain ⟨hyx, hy⟩ := Finset.mem_erase.1 hy
      refine ⟨a, ha, x, y, z, z', Finset.mem_range.1 hx, Finset.mem_range.1 hy, hyx, Finset.mem_range.1 hz, Finset.mem_range.1 hz', ?_, ?_, ?_⟩
      · rw [htime]; exact Rat.cast_pos.1 hp
      · rw [htime]; exact Rat.cast_pos.1 hp'
      · rw [htime, htime, hcount _ _ _ _ hyx, hcount _ _ _ _ hyx]
        intro e
        apply hne
        have := congrArg (fun q : ℚ => (q : ℝ)) e
        push_cast at this
        exact this
  · constructor
    · rintro ⟨a, ha, x, z, z', hx, hz, hz', hzz, hp, hp'⟩
      rw [htime] at hp hp'
      exact ⟨L1.map a, List.mem_toFinset.2 (lt_assignments ha), L2.map a, List.mem_toFinset.2 (lt_assignments ha), x, Finset.mem_range.2 hx,
        z, Finset.mem_range.2 hz, z', Finset.mem_range.2 hz', hzz, Rat.cast_pos.2 hp, Rat.cast_pos.2 hp'⟩
    · rintro ⟨u1, hu1, u2, hu2, x, hx, z, hz, z', hz', hzz, hp, hp'⟩
      obtain ⟨a, ha, rfl, rfl⟩ := hfun u1 hu1 u2 hu2
      refine ⟨a, ha, x, z, z', Finset.mem_range.1 hx, Finset.mem_range.1 hz, Finset.mem_range.1 hz', hzz, ?_, ?_⟩
      · rw [htime]; exact Rat.cast_pos.1 hp
      · rw [htime]; exact Rat.cast_pos.1 hp'

/-- The likelihoods without and with `p`, for data observed `k` times. -/
theorem likelihood_trichotomy (hU : UniformData s t c) (hpos : ∀ d ∈ t.times, 0 < d) (hc : 2 ≤ c) {τ α : ℝ} (hτ : 0 < τ) (hα : 0 < α)
    (n : Label) {K : List Label} {p : Label} (hp : p ∈ s.labels) (hpK : p ∉ K) :
    (Matters s t n c K p → ∀ᶠ k in atTop,
      likelihood s (repeated t k) c τ α n K.toFinset < likelihood s (repeated t k) c τ α n (insert p K.toFinset)) ∧
    (¬ Matters s t n c K p → Varies s t n c K p → ∀ᶠ k in atTop,
      likelihood s (repeated t k) c τ α n (insert p K.toFinset) < likelihood s (repeated t k) c τ α n K.toFinset) ∧
    (¬ Varies s t n c K p → ∀ k,
      likelihood s (repeated t k) c τ α n (insert p K.toFinset) = likelihood s (repeated t k) c τ α n K.toFinset) := by
  obtain ⟨L1, L2, h1, h2, hnd⟩ := ordered_cons hU.wf.nodup hp hpK
  obtain ⟨iM, iV⟩ := matters_iff_split (t := t) (n := n) (by omega : 0 < c) h2 hnd
  have hc' : (0 : ℝ) < (c : ℝ) - 1 := by
    have : (2 : ℝ) ≤ c := by exact_mod_cast hc
    linarith
  have hw : 0 < α / ((c : ℝ) - 1) := by positivity
  have hcp : s.getStatesNumber p = .ok c := by
    obtain ⟨w, hw', e⟩ := getStatesNumber_mem hU.wf hp
    rw [e, hU.cards w hw']
  have hrt : ∀ k, ∀ d ∈ (repeated t k).times, 0 ≤ d := by
    intro k d hd
    obtain ⟨l, hl, hd⟩ := List.mem_flatten.1 hd
    rw [(List.mem_replicate.1 hl).2] at hd
    exact (hpos d hd).le
  have hwα : ∀ x ∈ Finset.range c, α = α / ((c : ℝ) - 1) * (((Finset.range c).erase x).card : ℝ) := by
    intro x hx
    rw [Finset.card_erase_of_mem hx, Finset.card_range, Nat.cast_sub (by omega), Nat.cast_one]
    field_simp
  -- the difference of one cell
  let m := fun u1 u2 x (z y : Nat) => transitions s t n (L1 ++ p :: L2) x y (u1 ++ z :: u2)
  let T := fun u1 u2 x (z : Nat) => ((residence s t n (L1 ++ p :: L2) x (u1 ++ z :: u2) : ℚ) : ℝ)
  let D := fun (k : ℕ) u1 u2 x => ∑ z ∈ Finset.range c, logCell s (repeated t k) c τ α n (L1 ++ p :: L2) x (u1 ++ z :: u2) -
    logCell s (repeated t k) c τ α n (L1 ++ L2) x (u1 ++ u2)
  have hwhole : ∀ u1 ∈ (assignments (L1.map (fun _ => c))).toFinset, ∀ u2 x k,
      logCell s (repeated t k) c τ α n (L1 ++ L2) x (u1 ++ u2) = Real.log (cellMarginal τ α (α / (c - 1)) ((Finset.range c).erase x)
        (fun y => k * ∑ z ∈ Finset.range c, m u1 u2 x z y) (k * ∑ z ∈ Finset.range c, T u1 u2 x z)) := by
    intro u1 hu1 u2 x k
    have hl := (assignments_lt (List.mem_toFinset.1 hu1)).1
    have e1 : (fun y => k * transitions s t n (L1 ++ L2) x y (u1 ++ u2)) = fun y => k * ∑ z ∈ Finset.range c, m u1 u2 x z y :=
      funext (fun y => by rw [transitions_split hU.data hp hcp hl])
    rw [logCell_repeated hU.data, residence_split hU.data hp hcp hl, e1]
    push_cast
    rfl
  have hE : ∀ u1 ∈ (assignments (L1.map (fun _ => c))).toFinset, ∀ u2 x,
      Expands (fun k => D k u1 u2 x)
        (∑ z ∈ Finset.range c, cellFit ((Finset.range c).erase x) (m u1 u2 x z) (T u1 u2 x z) -
          cellFit ((Finset.range c).erase x) (fun y => ∑ z ∈ Finset.range c, m u1 u2 x z y) (∑ z ∈ Finset.range c, T u1 u2 x z))
        (∑ z ∈ Finset.range c, cellPrice α (α / (c - 1)) ((Finset.range c).erase x) (m u1 u2 x z) (T u1 u2 x z) -
          cellPrice α (α / (c - 1)) ((Finset.range c).erase x) (fun y => ∑ z ∈ Finset.range c, m u1 u2 x z y) (∑ z ∈ Finset.range c, T u1 u2 x z)) := by
    intro u1 hu1 u2 x
    have hok := cell_splitOK (c := c) hU.data hpos n p L1 L2 x u1 u2
    refine (Expands.sum _ (fun z hz => ?_)).sub ?_
    · exact (expands_cell hτ hα hw _ (m u1 u2 x z) (hok.nonneg z hz) (hok.zero z hz)).congr (fun k _ => logCell_repeated hU.data k τ α n _ x _)
    · refine (expands_cell hτ hα hw _ _ (Finset.sum_nonneg hok.nonneg) (fun h0 y hy => ?_)).congr (fun k _ => hwhole u1 hu1 u2 x k)
      refine Finset.sum_eq_zero (fun z hz => hok.zero z hz ?_ y hy)
      exact (Finset.sum_eq_zero_iff_of_nonneg hok.nonneg).1 h0 z hz
  have hdiff := fun k => log_likelihood_diff (t := repeated t k) (hrt k) hc hτ hα n h1 h2
  have hLpos := fun k => (log_likelihood (s := s) (hrt k) hc hτ hα n K).1
  have hLpos' : ∀ k, 0 < likelihood s (repeated t k) c τ α n (insert p K.toFinset) := by
    intro k
    have := (log_likelihood (s := s) (hrt k) hc hτ hα n (p :: K)).1
    rwa [List.toFinset_cons] at this
  have hsum := Expands.sum (assignments (L1.map (fun _ => c))).toFinset (fun u1 hu1 =>
    Expands.sum (assignments (L2.map (fun _ => c))).toFinset (fun u2 _ => Expands.sum (Finset.range c) (fun x _ => hE u1 hu1 u2 x)))
  have hsum' := hsum.congr (g := fun k => Real.log (likelihood s (repeated t k) c τ α n (insert p K.toFinset)) -
    Real.log (likelihood s (repeated t k) c τ α n K.toFinset)) (fun k _ => hdiff k)
  have fit0 : ∀ u1 u2 x, _ := fun u1 u2 x => fit_gain_nonneg (cell_splitOK (c := c) hU.data hpos n p L1 L2 x u1 u2)
  refine ⟨fun hM => ?_, fun hM hV => ?_, fun hV k => ?_⟩
  · obtain ⟨u1, hu1, u2, hu2, x, hx, hd⟩ := iM.1 hM
    have hpos' := hsum'.eventually_pos (by
      refine Finset.sum_pos' (fun u1 _ => Finset.sum_nonneg (fun u2 _ => Finset.sum_nonneg (fun x _ => fit0 u1 u2 x))) ⟨u1, hu1, ?_⟩
      refine Finset.sum_pos' (fun u2 _ => Finset.sum_nonneg (fun x _ => fit0 u1 u2 x)) ⟨u2, hu2, ?_⟩
      exact Finset.sum_pos' (fun x _ => fit0 u1 u2 x) ⟨x, hx, fit_gain_pos (cell_splitOK (c := c) hU.data hpos n p L1 L2 x u1 u2) hd⟩)
    filter_upwards [hpos'] with k hk
    rw [sub_pos] at hk
    exact (Real.log_lt_log_iff (hLpos k) (hLpos' k)).1 hk
  · have hno : ∀ u1 ∈ (assignments (L1.map (fun _ => c))).toFinset, ∀ u2 ∈ (assignments (L2.map (fun _ => c))).toFinset, ∀ x ∈ Finset.range c,
        ¬ SplitDiffers (Finset.range c) ((Finset.range c).erase x) (m u1 u2 x) (T u1 u2 x) :=
      fun u1 hu1 u2 hu2 x hx hd => hM (iM.2 ⟨u1, hu1, u2, hu2, x, hx, hd⟩)
    have e0 : ∑ u1 ∈ (assignments (L1.map (fun _ => c))).toFinset, ∑ u2 ∈ (assignments (L2.map (fun _ => c))).toFinset, ∑ x ∈ Finset.range c,
        (∑ z ∈ Finset.range c, cellFit ((Finset.range c).erase x) (m u1 u2 x z) (T u1 u2 x z) -
          cellFit ((Finset.range c).erase x) (fun y => ∑ z ∈ Finset.range c, m u1 u2 x z y) (∑ z ∈ Finset.range c, T u1 u2 x z)) = 0 :=
      Finset.sum_eq_zero (fun u1 hu1 => Finset.sum_eq_zero (fun u2 hu2 => Finset.sum_eq_zero (fun x hx =>
        fit_gain_zero (cell_splitOK (c := c) hU.data hpos n p L1 L2 x u1 u2) (hno u1 hu1 u2 hu2 x hx))))
    rw [e0] at hsum'
    have price0 := fun u1 hu1 u2 hu2 x hx => price_gain_nonneg hα hw (hwα x hx) (cell_splitOK (c := c) hU.data hpos n p L1 L2 x u1 u2)
      (hno u1 hu1 u2 hu2 x hx)
    obtain ⟨u1, hu1, u2, hu2, x, hx, hv⟩ := iV.1 hV
    have hneg := hsum'.eventually_neg (by
      refine Finset.sum_pos' (fun u1 hu1 => Finset.sum_nonneg (fun u2 hu2 => Finset.sum_nonneg (fun x hx => (price0 u1 hu1 u2 hu2 x hx).1))) ⟨u1, hu1, ?_⟩
      refine Finset.sum_pos' (fun u2 hu2 => Finset.sum_nonneg (fun x hx => (price0 u1 hu1 u2 hu2 x hx).1)) ⟨u2, hu2, ?_⟩
      exact Finset.sum_pos' (fun x hx => (price0 u1 hu1 u2 hu2 x hx).1) ⟨x, hx, (price0 u1 hu1 u2 hu2 x hx).2 hv⟩)
    filter_upwards [hneg] with k hk
    rw [sub_neg] at hk
    exact (Real.log_lt_log_iff (hLpos' k) (hLpos k)).1 hk
  · have hno : ∀ u1 ∈ (assignments (L1.map (fun _ => c))).toFinset, ∀ u2 ∈ (assignments (L2.map (fun _ => c))).toFinset, ∀ x ∈ Finset.range c,
        ¬ SplitVaries (Finset.range c) (T u1 u2 x) := fun u1 hu1 u2 hu2 x hx hv => hV (iV.2 ⟨u1, hu1, u2, hu2, x, hx, hv⟩)
    have h0 : Real.log (likelihood s (repeated t k) c τ α n (insert p K.toFinset)) - Real.log (likelihood s (repeated t k) c τ α n K.toFinset) = 0 := by
      rw [hdiff k]
      refine Finset.sum_eq_zero (fun u1 hu1 => Finset.sum_eq_zero (fun u2 hu2 => Finset.sum_eq_zero (fun x hx => ?_)))
      rw [hwhole u1 hu1, sub_eq_zero]
      have hok := cell_splitOK (c := c) hU.data hpos n p L1 L2 x u1 u2
      have hokk : SplitOK (Finset.range c) ((Finset.range c).erase x) (fun z y => k * m u1 u2 x z y) (fun z => k * T u1 u2 x z) := by
        refine ⟨fun z hz => mul_nonneg (Nat.cast_nonneg k) (hok.nonneg z hz), fun z hz h0 y hy => ?_⟩
        rcases mul_eq_zero.1 h0 with h | h
        · have : k = 0 := by exact_mod_cast h
          simp [this]
        · show k * m u1 u2 x z y = 0
          rw [show m u1 u2 x z y = 0 from hok.zero z hz h y hy, Nat.mul_zero]
      have htriv := split_trivial hτ hα hw hokk (by
        rintro ⟨z, hz, z', hz', hne, hp1, hp2⟩
        refine hno u1 hu1 u2 hu2 x hx ⟨z, hz, z', hz', hne, ?_, ?_⟩
        · exact pos_of_mul_pos_right hp1 (Nat.cast_nonneg k)
        · exact pos_of_mul_pos_right hp2 (Nat.cast_nonneg k))
      rw [Finset.mul_sum]
      simp only [Finset.mul_sum]
      rw [← htriv, Real.log_prod (fun z hz => (log_cellMarginal hτ hα hw _ _ (hokk.nonneg z hz)).1.ne')]
      exact Finset.sum_congr rfl (fun z _ => logCell_repeated hU.data k τ α n _ x _)
    rw [sub_eq_zero] at h0
    exact Real.log_injOn_pos (hLpos' k) (hLpos k) h0

/-! ## C166: one more parent -/

theorem uniform_repeated (hU : UniformData s t c) (k : Nat) : UniformData s (repeated t k) c where
  wf := hU.wf
  data := repeated_ok hU.data k
  cards := hU.cards
  times d hd := by
    obtain ⟨l, hl, hd⟩ := List.mem_flatten.1 hd
    rw [(List.mem_replicate.1 hl).2] at hd
    exact hU.times d hd

/-- **C166** One more parent and enough data.  All variables have `c ≥ 2` states, all durations are positive, the hyperparameters are positive.  Let `K` be
parents of `n` and `p` one more.  If, in the data, `p` matters to `n` beyond `K`, then once the data have been observed often enough the score of `K` and `p`
is greater than that of `K`.  If it does not matter but varies, it is smaller.  If it does not vary, the scores are equal. -/
theorem score_one_more_parent (hU : UniformData s t c) (he : s.edges = []) (hpos : ∀ d ∈ t.times, 0 < d) (hc : 2 ≤ c) {τ α : ℝ} (hτ : 0 < τ) (hα : 0 < α)
    {n : Label} (hn : n ∈ s.labels) {K : List Label} (hK : ∀ q ∈ K, q ∈ s.labels) {p : Label} (hp : p ∈ s.labels) (hpK : p ∉ K) :
    (Matters s t n c K p → ∃ k₀, ∀ k, k₀ ≤ k → ∃ v w, scoreOfParents s (repeated t k) τ α n K.toFinset = .ok v ∧
      scoreOfParents s (repeated t k) τ α n (insert p K.toFinset) = .ok w ∧ v < w) ∧
    (¬ Matters s t n c K p → Varies s t n c K p → ∃ k₀, ∀ k, k₀ ≤ k → ∃ v w, scoreOfParents s (repeated t k) τ α n K.toFinset = .ok v ∧
      scoreOfParents s (repeated t k) τ α n (insert p K.toFinset) = .ok w ∧ w < v) ∧
    (¬ Varies s t n c K p → ∀ k, ∃ v, scoreOfParents s (repeated t k) τ α n K.toFinset = .ok v ∧
      scoreOfParents s (repeated t k) τ α n (insert p K.toFinset) = .ok v) := by
  obtain ⟨h1, h2, h3⟩ := likelihood_trichotomy hU hpos hc hτ hα n hp hpK
  have hs : ∀ k, ∃ v w, scoreOfParents s (repeated t k) τ α n K.toFinset = .ok v ∧ scoreOfParents s (repeated t k) τ α n (insert p K.toFinset) = .ok w ∧
      Real.exp v = likelihood s (repeated t k) c τ α n K.toFinset ∧ Real.exp w = likelihood s (repeated t k) c τ α n (insert p K.toFinset) := by
    intro k
    obtain ⟨v, v1, v2⟩ := score_of_parents_exact (uniform_repeated hU k) he hc hτ hα hn (P := K.toFinset) (fun q hq => hK q (List.mem_toFinset.1 hq))
    obtain ⟨w, w1, w2⟩ := score_of_parents_exact (uniform_repeated hU k) he hc hτ hα hn (P := insert p K.toFinset) (fun q hq => by
      rcases Finset.mem_insert.1 hq with rfl | hq
      · exact hp
      · exact hK q (List.mem_toFinset.1 hq))
    exact ⟨v, w, v1, w1, v2, w2⟩
  refine ⟨fun hM => ?_, fun hM hV => ?_, fun hV k => ?_⟩
  · obtain ⟨k₀, hk₀⟩ := eventually_atTop.1 (h1 hM)
    refine ⟨k₀, fun k hk => ?_⟩
    obtain ⟨v, w, e1, e2, e3, e4⟩ := hs k
    refine ⟨v, w, e1, e2, Real.exp_lt_exp.1 ?_⟩
    rw [e3, e4]
    exact hk₀ k hk
  · obtain ⟨k₀, hk₀⟩ := eventually_atTop.1 (h2 hM hV)
    refine ⟨k₀, fun k hk => ?_⟩
    obtain ⟨v, w, e1, e2, e3, e4⟩ := hs k
    refine ⟨v, w, e1, e2, Real.exp_lt_exp.1 ?_⟩
    rw [e3, e4]
    exact hk₀ k hk
  · obtain ⟨v, w, e1, e2, e3, e4⟩ := hs k
    have : v = w := Real.exp_injective (by rw [e3, e4, h3 hV k])
    subst this
    exact ⟨v, e1, e2⟩

/-! ## C167: the estimated network -/

theorem matters_congr {K K' : List Label} (h : ∀ l ∈ s.labels, l ∈ K ↔ l ∈ K') (n p : Label) :
    (Matters s t n c K p ↔ Matters s t n c K' p) ∧ (Varies s t n c K p ↔ Varies s t n c K' p) := by
  have e : ∀ a z, givenWith s t n c K p a z = givenWith s t n c K' p a z := by
    intro a z
    unfold givenWith given
    rw [ordered_congr (s := s) (K := p :: K) (K' := p :: K') (fun l hl => by simp [h l hl])]
  unfold Matters Varies
  simp only [e, and_self]

/-- Prior knowledge does not concern the data. -/
theorem known_data {t t' : Trajectory} {τ α : ℝ} {R : List (List Bool)} {known : List Edge} (h : KnownEdges (sbEnv s t τ α R) known) :
    KnownEdges (sbEnv s t' τ α R) known := ⟨h.indexed, h.built, h.noLoop⟩

/-- **C167** The network estimated from enough data.  As C166, with score-based estimation by tabu search under the conditions of C130.  Once the data have been
observed often enough, in any network returned: a variable `p` that is not a parent of `n` does not matter to `n` beyond its parents; a parent that was not
prior knowledge matters beyond the other parents, or does not vary beyond them. -/
theorem estimated_network_explains (hU : UniformData s.cleanEdges t c) (hpos : ∀ d ∈ t.times, 0 < d) (hc : 2 ≤ c) {τ α : ℝ} (hτ : 0 < τ) (hα : 0 < α)
    {R : List (List Bool)} {known : List Edge} (hK : KnownEdges (sbEnv s.cleanEdges t τ α R) known) {a : SBArgs} (hopt : a.optimizer = "tabu")
    (hmp : a.maxParents = none) (htl : ∀ k, a.tabuLength = some k → (s.labels.length : ℤ) - 1 ≤ k)
    (htd : ∀ k, a.tabuDuration = some k → (s.labels.length : ℤ) - 1 ≤ |k|) (hpat : ∀ m, a.patience = some m → (s.labels.length : ℤ) - 1 ≤ m + 1)
    (hit : (s.labels.length - 1) * 2 ^ (s.labels.length - 1) ≤ a.iterations) :
    ∃ k₀, ∀ k, k₀ ≤ k → ∀ (complete : DiGraph) (order : Option (List Label)) (pick drop : Label → Nat → Nat) (es : Finset Edge) (rep : Option (ℚ × ℚ))
      (e' : Estimator), (∀ o, order = some o → o.Perm s.labels) →
      estimateStructure (famScoreOn (repeated t k) τ α) R ⟨s, complete⟩ a order pick drop = (.ok (es, rep), e') →
      ∀ n ∈ s.labels, ∀ p ∈ s.labels, p ≠ n → (p, n) ∉ known → ∀ K : List Label, (∀ q, q ∈ K ↔ (q, n) ∈ es ∧ q ≠ p) →
        ((p, n) ∉ es → ¬ Matters s t n c K p) ∧ ((p, n) ∈ es → Matters s t n c K p ∨ ¬ Varies s t n c K p) := by
  have key : ∀ᶠ k in atTop, ∀ L ∈ s.labels.sublists.toFinset, ∀ n ∈ s.labels.toFinset, ∀ p ∈ s.labels.toFinset, p ∉ L →
      (Matters s t n c L p → likelihood s.cleanEdges (repeated t k) c τ α n L.toFinset < likelihood s.cleanEdges (repeated t k) c τ α n (insert p L.toFinset)) ∧
      (¬ Matters s t n c L p → Varies s t n c L p →
        likelihood s.cleanEdges (repeated t k) c τ α n (insert p L.toFinset) < likelihood s.cleanEdges (repeated t k) c τ α n L.toFinset) := by
    rw [Filter.eventually_all_finset]
    intro L hL
    rw [Filter.eventually_all_finset]
    intro n hn
    rw [Filter.eventually_all_finset]
    intro p hp
    by_cases hpL : p ∈ L
    · exact Eventually.of_forall (fun _ h => absurd hpL h)
    obtain ⟨h1, h2, -⟩ := likelihood_trichotomy hU hpos hc hτ hα n (List.mem_toFinset.1 hp) hpL
    by_cases hM : Matters s t n c L p
    · filter_upwards [h1 hM] with k hk _
      exact ⟨fun _ => hk, fun h => absurd hM h⟩
    · by_cases hV : Varies s t n c L p
      · filter_upwards [h2 hM hV] with k hk _
        exact ⟨fun h => absurd h hM, fun _ _ => hk⟩
      · exact Eventually.of_forall (fun _ _ => ⟨fun h => absurd h hM, fun _ h => absurd h hV⟩)
  obtain ⟨k₀, hk₀⟩ := eventually_atTop.1 key
  have hK : ∀ k, KnownEdges (sbEnv s.cleanEdges (repeated t k) τ α R) known := fun _ => known_data hK
  refine ⟨k₀, fun k hk complete order pick drop es rep e' ho h n hn p hp hpn hkn K hKes => ?_⟩
  have hopt' := tabu_estimate_local_optimum (uniform_repeated hU k) hc hτ hα (hK k) hopt hmp htl htd hpat hit ho h hn hp hpn hkn
  have hlab : ∀ q, (q, n) ∈ es → q ∈ s.labels := by
    intro q hq
    have hws : WFStructure s := ⟨hU.wf.nodup, hU.wf.idxLen, hU.wf.valLen⟩
    obtain ⟨k1, k2⟩ := estimate_is_union ho h
    obtain ⟨m, hm, r, hr, hqr⟩ := (k2 _).1 hq
    exact ((nodeResult_spec hws (hK k) hr).2.1 _ hqr).2.1
  have hKl : ∀ q ∈ K, q ∈ s.labels := fun q hq => hlab q ((hKes q).1 hq).1
  have hpK : p ∉ K := fun hq => ((hKes p).1 hq).2 rfl
  have hL : ordered s K ∈ s.labels.sublists.toFinset := List.mem_toFinset.2 (List.mem_sublists.2 List.filter_sublist)
  have hmem : ∀ l, l ∈ ordered s K ↔ l ∈ K := by
    intro l
    unfold ordered
    rw [List.mem_filter, decide_eq_true_eq]
    exact ⟨fun h => h.2, fun h => ⟨hKl l h, h⟩⟩
  obtain ⟨g1, g2⟩ := hk₀ k hk _ hL n (List.mem_toFinset.2 hn) p (List.mem_toFinset.2 hp) (fun hq => hpK ((hmem p).1 hq))
  have hfs : (ordered s K).toFinset = K.toFinset := by ext l; simp [hmem l]
  obtain ⟨i1, i2⟩ := matters_congr (s := s) (t := t) (c := c) (K := ordered s K) (K' := K) (fun l _ => hmem l) n p
  rw [hfs, i1] at g1
  rw [hfs, i1, i2] at g2
  have hPiff : ∀ q, q ∈ (es.filter (fun x => x.2 = n)).image Prod.fst ↔ (q, n) ∈ es := by
    intro q
    simp only [Finset.mem_image, Finset.mem_filter]
    constructor
    · rintro ⟨⟨x, y⟩, ⟨h1, h2⟩, h3⟩
      simp only at h2 h3
      rw [← h2, ← h3]; exact h1
    · intro hx; exact ⟨_, ⟨hx, rfl⟩, rfl⟩
  constructor
  · intro hout hM
    have hP : (es.filter (fun x => x.2 = n)).image Prod.fst = K.toFinset := by
      ext q
      rw [hPiff, List.mem_toFinset, hKes]
      exact ⟨fun hq => ⟨hq, fun e => hout (e ▸ hq)⟩, fun hq => hq.1⟩
    have := hopt'.2 hout
    rw [hP] at this
    exact absurd (g1 hM) (not_lt.2 this)
  · intro hin
    by_contra hcon
    push Not at hcon
    have hP : ((es.filter (fun x => x.2 = n)).image Prod.fst).erase p = K.toFinset := by
      ext q
      rw [Finset.mem_erase, hPiff, List.mem_toFinset, hKes, and_comm]
    have hP' : (es.filter (fun x => x.2 = n)).image Prod.fst = insert p K.toFinset := by
      rw [← hP, Finset.insert_erase ((hPiff p).2 hin)]
    have := hopt'.1 hin
    rw [hP, hP'] at this
    exact absurd (g2 hcon.1 hcon.2) (not_lt.2 this)

/-! ## Cases -/

namespace Demo

/-- In the data of `exT2`, `Y` matters to `X`. -/
theorem exT2_matters : Matters exS2.cleanEdges exT2 "X" 2 [] "Y" :=
  ⟨fun _ => 0, fun _ => by norm_num, 0, 1, 0, 1, by decide +kernel, by decide +kernel, by decide +kernel, by decide +kernel, by decide +kernel,
    by decide +kernel, by decide +kernel, by decide +kernel⟩

/-- Data in which `X` occurs in both states, but `Y` behaves alike. -/
def alikeData : Trajectory := ⟨[1, 1], [[0, 0, 0, 1], [1, 0, 1, 1]], 3⟩

theorem alikeData_ok : UniformData exS2.cleanEdges alikeData 2 where
  wf := exU.wf
  data := dataOK_of_check _ _ exU.wf rfl rfl (by decide +kernel) (by decide +kernel) (by decide +kernel) 
  cards := exU.cards
  times := by decide +kernel

theorem given_alike (a : Label → Nat) (z : Nat) : givenWith exS2.cleanEdges alikeData "Y" 2 [] "X" a z = observed exS2.cleanEdges alikeData "Y" ["X"] 2 [z] := by
  unfold givenWith given
  rw [show ordered exS2.cleanEdges ["X"] = ["X"] by decide +kernel]
  rfl

theorem alike_not_matters : ¬ Matters exS2.cleanEdges alikeData "Y" 2 [] "X" ∧ Varies exS2.cleanEdges alikeData "Y" 2 [] "X" := by
  constructor
  · rintro ⟨a, -, x, y, z, z', hx, hy, hyx, hz, hz', h1, h2, h3⟩
    rw [given_alike, given_alike] at h3
    rw [given_alike] at h1 h2
    revert h1 h2 h3
    have hx' : x = 0 ∨ x = 1 := by omega
    have hy' : y = 0 ∨ y = 1 := by omega
    have hz1 : z = 0 ∨ z = 1 := by omega
    have hz2 : z' = 0 ∨ z' = 1 := by omega
    rcases hx' with rfl | rfl <;> rcases hy' with rfl | rfl <;> rcases hz1 with rfl | rfl <;> rcases hz2 with rfl | rfl <;> decide +kernel
  · refine ⟨fun _ => 0, fun _ => by norm_num, 0, 0, 1, by norm_num, by norm_num, by norm_num, by norm_num, ?_, ?_⟩ <;> rw [given_alike] <;> decide +kernel

/-- Enough copies of `exT2` reward the edge from `Y` to `X`; enough copies of `alikeData` punish the edge from `X` to `Y`. -/
example : (∃ k₀, ∀ k, k₀ ≤ k → ∃ v w, scoreOfParents exS2.cleanEdges (repeated exT2 k) 1 1 "X" ∅ = .ok v ∧
      scoreOfParents exS2.cleanEdges (repeated exT2 k) 1 1 "X" {"Y"} = .ok w ∧ v < w) ∧
    (∃ k₀, ∀ k, k₀ ≤ k → ∃ v w, scoreOfParents exS2.cleanEdges (repeated alikeData k) 1 1 "Y" ∅ = .ok v ∧
      scoreOfParents exS2.cleanEdges (repeated alikeData k) 1 1 "Y" {"X"} = .ok w ∧ w < v) :=
  ⟨(score_one_more_parent exU rfl (by decide +kernel) (le_refl 2) one_pos one_pos (by decide) (K := []) (by simp) (by decide) (by simp)).1 exT2_matters,
    (score_one_more_parent alikeData_ok rfl (by decide +kernel) (le_refl 2) one_pos one_pos (by decide) (K := []) (by simp) (by decide) (by simp)).2.1
      alike_not_matters.1 alike_not_matters.2⟩

/-- With the default arguments and enough copies of `exT2`, estimation finds the edge from `Y` to `X`, whatever is drawn. -/
example : ∃ k₀, ∀ k, k₀ ≤ k → ∀ pick drop, ∃ es rep e',
    estimateStructure (famScoreOn (repeated exT2 k) 1 1) [[true, true], [true, true]] (Estimator.new exS2) defaultArgs none pick drop = (.ok (es, rep), e') ∧
    ("Y", "X") ∈ es := by
  obtain ⟨k₀, hk₀⟩ := estimated_network_explains (s := exS2) (t := exT2) (a := defaultArgs) (R := [[true, true], [true, true]]) (known := []) exU
    (by decide +kernel) (le_refl 2) one_pos one_pos exU_known rfl rfl (by simp [defaultArgs]) (by simp [defaultArgs])
    (by simp [defaultArgs]) (by decide)
  refine ⟨k₀, fun k hk pick drop => ?_⟩
  obtain ⟨es, rep, e', h, -⟩ := score_based_returns_partial (a := defaultArgs) (order := none) (uniform_repeated exU k) (le_refl 2) one_pos one_pos
    (known_data exU_known)
    ⟨by simp [defaultArgs], by simp [defaultArgs], by simp [defaultArgs]⟩
    (by
      intro n hn
      have : n = "X" ∨ n = "Y" := by simpa [exS2] using hn
      rcases this with rfl | rfl
      · exact ⟨"Y", by simp [candidates, sbEnv, exS2, Structure.cleanEdges, parentsIn]⟩
      · exact ⟨"X", by simp [candidates, sbEnv, exS2, Structure.cleanEdges, parentsIn]⟩) (Estimator.new exS2).complete (by simp) pick drop
  refine ⟨es, rep, e', h, ?_⟩
  by_contra hout
  have hwf := (estimate_well_formed (e := Estimator.new exS2) (show WFStructure exS2 from ⟨by decide, rfl, rfl⟩) (known_data exU_known) (by simp) h).1
  refine (hk₀ k hk _ none pick drop es rep e' (by simp) h "X" (by decide) "Y" (by decide) (by decide) (by simp) [] (fun q => ?_)).1 hout exT2_matters
  simp only [List.not_mem_nil, false_iff, not_and, not_not]
  intro hq
  obtain ⟨q1, -, q3⟩ := hwf _ hq
  have : q = "X" ∨ q = "Y" := by simpa [Estimator.new, exS2] using q1
  exact this.resolve_left q3

end Demo

end PyCTBN
