import Verif.Spec.TrajGen
import Verif.Props.NetGen

/-!
# Lemmas about the sampler
-/

namespace PyCTBN
open Spec

theorem dictGet_map {β : Type _} {l : List Label} {f : Label → β} {v : Label} (hv : v ∈ l) :
    dictGet (l.map (fun v => (v, f v))) v = .ok (f v) := by
  unfold dictGet
  induction l with
  | nil => simp at hv
  | cons a l ih =>
    by_cases h : a = v
    · subst h; simp
    · rw [List.map_cons, List.find?_cons_of_neg (by simpa using h)]
      exact ih (by simpa [Ne.symm h] using hv)

theorem idxOf?_of_mem {l : List Label} {v : Label} (hv : v ∈ l) : l.idxOf? v = some (l.idxOf v) := by
  have := pyIndex_of_mem hv
  unfold pyIndex at this
  cases h : l.idxOf? v with
  | none => rw [h] at this; simp at this
  | some i => rw [h] at this; simp only [Except.ok.injEq] at this; rw [this]

theorem filter_eq_single {α : Type _} [DecidableEq α] {l : List α} {a : α} (hn : l.Nodup) (ha : a ∈ l) :
    l.filter (fun p => decide (p = a)) = [a] := by
  induction l with
  | nil => simp at ha
  | cons b l ih =>
    rw [List.nodup_cons] at hn
    by_cases h : b = a
    · subst h
      rw [List.filter_cons_of_pos (by simp), List.filter_eq_nil_iff.2]
      intro p hp e
      simp only [decide_eq_true_eq] at e
      subst e; exact hn.1 hp
    · rw [List.filter_cons_of_neg (by simpa using h)]
      exact ih hn.2 (by simpa [Ne.symm h] using ha)

/-- The assignment in row `k` selects the CIM in row `k` alone. -/
theorem filterCims_all {s : SetOfCims} (hlenc : s.cims.length = s.pCombs.length) (hnodup : s.pCombs.Nodup) {ps : List Label}
    (hwidth : ∀ u ∈ s.pCombs, u.length = ps.length) (hge : 2 ≤ ps.length) {u : List Nat} (hlen : u.length = ps.length) {k : Nat}
    (hk : s.pCombs[k]? = some u) (hkl : k < s.cims.length) : s.filterCims (ps.map (fun _ => true)) u = .ok [s.cims[k]] := by
  have hck := List.getElem?_eq_getElem hkl
  have hmk : ∀ w : List Nat, w.length = ps.length → SetOfCims.maskRow (ps.map (fun _ => true)) w = w := by
    intro w hw
    unfold SetOfCims.maskRow
    rw [List.filter_eq_self.2]
    · exact List.map_fst_zip (by simp [hw])
    · rintro ⟨a, b⟩ hab
      have := List.of_mem_zip hab
      obtain ⟨_, _, hb⟩ := List.mem_map.1 this.2
      exact hb.symm
  have hsel : (s.pCombs.zipIdx.filter (fun p => decide (SetOfCims.maskRow (ps.map (fun _ => true)) p.1 = u))).map Prod.snd
      = [k] := by
    have : s.pCombs.zipIdx.filter (fun p => decide (SetOfCims.maskRow (ps.map (fun _ => true)) p.1 = u))
        = s.pCombs.zipIdx.filter (fun p => decide (p = (u, k))) := by
      apply List.filter_congr
      rintro ⟨w, j⟩ huj
      have hj := List.mem_zipIdx_iff_getElem?.1 huj
      simp only at hj
      rw [decide_eq_decide, hmk w (hwidth w (List.mem_of_getElem? hj))]
      simp only [Prod.mk.injEq]
      constructor
      · intro h
        refine ⟨h, ?_⟩
        by_contra hne
        subst h
        rcases Nat.lt_or_ge j k with hjk | hjk
        · exact List.nodup_iff_getElem?_ne_getElem?.1 hnodup j k hjk (List.getElem?_eq_some_iff.1 hk).1 (by rw [hj, hk])
        · exact List.nodup_iff_getElem?_ne_getElem?.1 hnodup k j (by omega) (List.getElem?_eq_some_iff.1 hj).1 (by rw [hj, hk])
      · exact fun h => h.1
    rw [this]
    have hnd : s.pCombs.zipIdx.Nodup := List.nodup_iff_pairwise_ne.2 (by
      have : (s.pCombs.zipIdx.map Prod.snd).Nodup := by rw [List.zipIdx_map_snd]; exact List.nodup_range'
      exact (List.pairwise_map.1 this).imp (fun h e => h (by rw [e])))
    have hmem : (u, k) ∈ s.pCombs.zipIdx := List.mem_zipIdx_iff_getElem?.2 hk
    rw [filter_eq_single hnd hmem]; rfl
  rw [filterCims_exact (by rw [hlen]; simp [List.map_const'])]
  rw [if_neg (by simp; omega), if_neg, if_neg]
  · simp only
    rw [hsel]
    simp only [List.mapM_cons, List.mapM_nil, pyGet_ok.2 hck]
    rfl
  · rw [hlen]
    simp [List.map_const']
  · rw [List.any_eq_true]
    rintro ⟨w, hw, h⟩
    simp only [ne_eq, decide_eq_true_eq, List.length_map] at h
    exact h (hwidth w hw)

section
variable {net : SampleNet} {N : Ctbn} (hD : Describes net N) (hOK : N.OK)
include hD

theorem valueOf_spec {vals : List Nat} (hr : N.InRange vals) {v : Label} (hv : v ∈ N.vars) :
    net.valueOf vals v = .ok (N.state vals v) := by
  unfold SampleNet.valueOf
  rw [hD.vnames, idxOf?_of_mem hv]
  have hlt : N.vars.idxOf v < vals.length := by rw [hr.1]; exact List.idxOf_lt_length_iff.2 hv
  simp only [List.getElem?_eq_getElem hlt]
  unfold Ctbn.state
  rw [List.getElem?_eq_getElem hlt]; rfl

include hOK

theorem parentStates_inRange {vals : List Nat} (hr : N.InRange vals) {v : Label} (hv : v ∈ N.vars) :
    InRangeAssign (N.parentCards v) (N.parentStates vals v) := by
  unfold InRangeAssign Ctbn.parentCards Ctbn.parentStates
  rw [List.forall₂_map_left_iff, List.forall₂_map_right_iff, List.forall₂_same]
  intro p hp
  exact hr.2 p (hOK.closed v hv p hp)

/-- The look-up finds the matrix of the current states of the parents. -/
theorem cimOf_spec {vals : List Nat} (hr : N.InRange vals) {v : Label} (hv : v ∈ N.vars) :
    net.cimOf vals v = .ok (N.cim v (N.parentStates vals v)) := by
  obtain ⟨s, hs, hst⟩ := hD.cims v hv
  unfold SampleNet.cimOf
  rw [hD.parents, dictGet_map hv]
  simp only [Except.bind_ok']
  have hu : (N.parents v).mapM (net.valueOf vals) = .ok (N.parentStates vals v) := by
    rw [mapM_congr_py (f' := fun p => Except.ok (N.state vals p)) (fun p hp => valueOf_spec hD hr (hOK.closed v hv p hp))]
    exact mapM_pure_ok _ _
  rw [hu, hs]
  simp only [Except.bind_ok']
  have hin := parentStates_inRange hD hOK hr hv
  have hlenu : (N.parentStates vals v).length = (N.parents v).length := by simp [Ctbn.parentStates]
  have hwidth : ∀ u ∈ s.pCombs, u.length = (N.parents v).length := by
    intro u hu
    have := ((hst.mem u).1 hu).length_eq
    simpa [Ctbn.parentCards] using this
  obtain ⟨k, hk⟩ := List.mem_iff_getElem?.1 ((hst.mem _).2 hin)
  have hkl : k < s.cims.length := by rw [hst.len]; exact (List.getElem?_eq_some_iff.1 hk).1
  have hck := List.getElem?_eq_getElem hkl
  rcases Nat.lt_or_ge (N.parents v).length 2 with hlt | hge
  · have hf : s.filterCims ((N.parents v).map (fun _ => true)) (N.parentStates vals v) = .ok s.cims := by
      unfold SetOfCims.filterCims
      rw [if_pos (by simp; omega)]
    rw [hf]
    simp only [Except.bind_ok']
    by_cases h1 : (N.parents v).length = 1
    · rw [if_pos h1]
      obtain ⟨x, hx⟩ := List.length_eq_one_iff.1 (hlenu.trans h1)
      rw [hx] at hk ⊢
      have := hst.single (by simpa [Ctbn.parentCards] using h1) k x hk
      subst this
      simp only [List.headD_cons]
      rw [pyGet_ok.2 hck]
      simp only [Except.bind_ok', Except.pure_eq_ok', Except.ok.injEq]
      exact hst.beside _ _ _ hk hck
    · rw [if_neg h1]
      have h0 : (N.parentStates vals v) = [] := List.length_eq_zero_iff.1 (by omega)
      have hone : s.pCombs.length ≤ 1 := by
        by_contra hcon
        have e0 : s.pCombs[0]? = some s.pCombs[0] := List.getElem?_eq_getElem (by omega)
        have e1 : s.pCombs[1]? = some s.pCombs[1] := List.getElem?_eq_getElem (by omega)
        have w0 : s.pCombs[0] = [] := List.length_eq_zero_iff.1 (by have := hwidth _ (List.mem_of_getElem? e0); omega)
        have w1 : s.pCombs[1] = [] := List.length_eq_zero_iff.1 (by have := hwidth _ (List.mem_of_getElem? e1); omega)
        exact List.nodup_iff_getElem?_ne_getElem?.1 hst.nodup 0 1 (by omega) (by omega) (by rw [e0, e1, w0, w1])
      have : k = 0 := by rw [hst.len] at hkl; omega
      subst this
      rw [pyGet_ok.2 hck]
      simp only [Except.bind_ok', Except.pure_eq_ok', Except.ok.injEq]
      exact hst.beside _ _ _ hk hck
  · rw [if_neg (by omega)]
    have hf : s.filterCims ((N.parents v).map (fun _ => true)) (N.parentStates vals v) = .ok [s.cims[k]] :=
      filterCims_all hst.len hst.nodup hwidth hge hlenu hk hkl
    rw [hf]
    simp only [Except.bind_ok', pyGet, List.getElem?_cons_zero, Except.pure_eq_ok', Except.ok.injEq]
    exact hst.beside _ _ _ hk hck

theorem matrixOK {vals : List Nat} (hr : N.InRange vals) {v : Label} (hv : v ∈ N.vars) :
    Ctbn.MatrixOK (N.card v) (N.cim v (N.parentStates vals v)) :=
  hOK.cims v hv _ (parentStates_inRange hD hOK hr hv)

/-- The row of intensities of the current state. -/
theorem row_spec {vals : List Nat} (hr : N.InRange vals) {v : Label} (hv : v ∈ N.vars) :
    ∃ row, (N.cim v (N.parentStates vals v))[N.state vals v]? = some row ∧ row.length = N.card v ∧
      ∀ j < N.card v, row[j]? = some (N.intensity vals v j) := by
  have hm := matrixOK hD hOK hr hv
  have hlt : N.state vals v < (N.cim v (N.parentStates vals v)).length := by rw [hm.rows]; exact hr.2 v hv
  refine ⟨_, List.getElem?_eq_getElem hlt, hm.cols _ (List.getElem_mem _), ?_⟩
  intro j hj
  have hl := hm.cols _ (List.getElem_mem hlt)
  have hj' := hl.symm ▸ hj
  unfold Ctbn.intensity cell
  rw [List.getElem?_eq_getElem hlt]
  simp only [Option.bind_some]
  rw [List.getElem?_eq_getElem hj']; rfl

theorem exitRate_nonneg {vals : List Nat} (hr : N.InRange vals) {v : Label} (hv : v ∈ N.vars) : 0 ≤ N.exitRate vals v := by
  unfold Ctbn.exitRate Ctbn.intensity
  exact neg_nonneg.2 ((matrixOK hD hOK hr hv).diag _ (hr.2 v hv))

theorem scaleOf_spec {vals : List Nat} (hr : N.InRange vals) {v : Label} (hv : v ∈ N.vars) :
    net.scaleOf vals v = .ok (N.exitRate vals v) := by
  unfold SampleNet.scaleOf
  rw [cimOf_spec hD hOK hr hv, valueOf_spec hD hr hv]
  simp only [Except.bind_ok']
  obtain ⟨row, h1, h2, h3⟩ := row_spec hD hOK hr hv
  rw [pyGet_ok.2 h1]
  simp only [Except.bind_ok']
  rw [pyGet_ok.2 (h3 _ (hr.2 v hv))]
  simp only [Except.bind_ok']
  have := exitRate_nonneg hD hOK hr hv
  unfold Ctbn.exitRate at this ⊢
  rw [if_neg (not_lt.2 this)]

/-- The event times once the undefined ones are drawn. -/
theorem fillTimers_spec {vals : List Nat} (hr : N.InRange vals) (t : ℚ) (e : Nat → ℚ) {timers : List (Option ℚ)}
    (hl : timers.length = N.vars.length) :
    ∃ times, net.fillTimers vals t e timers = .ok times ∧ times.length = N.vars.length ∧
      ∀ (i : Nat) (v : Label) (o : Option ℚ), N.vars[i]? = some v → timers[i]? = some o →
        times[i]? = some (o.getD (t + N.exitRate vals v * e i)) := by
  unfold SampleNet.fillTimers
  obtain ⟨times, h1, h2⟩ := mapM_ok_of_forall (fun p : Option ℚ × Nat =>
    match p.1 with
    | some x => (.ok x : Py ℚ)
    | none => do
      let v ← pyGet net.vnames p.2
      let q ← net.scaleOf vals v
      return t + q * e p.2) timers.zipIdx (by
    rintro ⟨o, i⟩ hoi
    have ho := List.mem_zipIdx_iff_getElem?.1 hoi
    simp only at ho
    cases o with
    | some x => exact ⟨x, rfl⟩
    | none =>
      have hi : i < N.vars.length := by rw [← hl]; exact (List.getElem?_eq_some_iff.1 ho).1
      dsimp only
      rw [hD.vnames, pyGet_ok.2 (List.getElem?_eq_getElem hi)]
      simp only [Except.bind_ok']
      rw [scaleOf_spec hD hOK hr (List.getElem_mem hi)]
      exact ⟨_, rfl⟩)
  have hf := mapM_ok_mem h1
  have hlen : times.length = N.vars.length := by rw [← hf.length_eq]; simpa using hl
  refine ⟨times, h1, hlen, ?_⟩
  intro i v o hv ho
  have hi := (List.getElem?_eq_some_iff.1 ho).1
  have hit : i < times.length := by rw [hlen, ← hl]; exact hi
  have hg := List.Forall₂.get hf (by simpa using hi) hit
  have hoe := (List.getElem?_eq_some_iff.1 ho).2
  simp only [List.get_eq_getElem, List.getElem_zipIdx, Nat.zero_add, hoe] at hg
  rw [List.getElem?_eq_getElem hit]
  cases o with
  | some x =>
    simp only [Except.ok.injEq] at hg
    rw [← hg]; rfl
  | none =>
    simp only at hg
    rw [hD.vnames, pyGet_ok.2 hv] at hg
    simp only [Except.bind_ok'] at hg
    rw [scaleOf_spec hD hOK hr (List.mem_of_getElem? hv)] at hg
    simp only [Except.bind_ok', Except.pure_eq_ok', Except.ok.injEq] at hg
    rw [← hg]; rfl

end

theorem argminFrom_spec (l : List ℚ) : ∀ (i : Nat) (x : ℚ) (k : Nat) (full : List ℚ), i < k → full[i]? = some x →
    (∀ j < i, ∀ y, full[j]? = some y → x < y) → (∀ j < k, ∀ y, full[j]? = some y → x ≤ y) →
    (∀ j : Nat, full[k + j]? = l[j]?) →
    full[(argminFrom i x k l).1]? = some (argminFrom i x k l).2 ∧
      (∀ y ∈ full, (argminFrom i x k l).2 ≤ y) ∧ ∀ j < (argminFrom i x k l).1, ∀ y, full[j]? = some y → (argminFrom i x k l).2 < y := by
  induction l with
  | nil =>
    intro i x k full hik hx hlt hle hfull
    refine ⟨hx, ?_, hlt⟩
    intro y hy
    obtain ⟨j, hj⟩ := List.mem_iff_getElem?.1 hy
    rcases Nat.lt_or_ge j k with h | h
    · exact hle j h y hj
    · have := hfull (j - k)
      rw [Nat.add_sub_cancel' h, hj] at this
      simp at this
  | cons z l ih =>
    intro i x k full hik hx hlt hle hfull
    have hz : full[k]? = some z := by simpa using hfull 0
    have hrest : ∀ j : Nat, full[k + 1 + j]? = l[j]? := by
      intro j
      have := hfull (j + 1)
      rw [show k + 1 + j = k + (j + 1) by ring, this]; simp
    rw [argminFrom]
    split
    · rename_i h
      refine ih k z (k + 1) full (by omega) hz ?_ ?_ hrest
      · intro j hj y hy
        exact lt_of_lt_of_le h (hle j hj y hy)
      · intro j hj y hy
        rcases Nat.lt_or_ge j k with h' | h'
        · exact le_trans h.le (hle j h' y hy)
        · have : j = k := by omega
          subst this
          rw [hz] at hy
          exact le_of_eq (Option.some.inj hy)
    · rename_i h
      refine ih i x (k + 1) full (by omega) hx hlt ?_ hrest
      intro j hj y hy
      rcases Nat.lt_or_ge j k with h' | h'
      · exact hle j h' y hy
      · have : j = k := by omega
        subst this
        rw [hz] at hy
        rw [← Option.some.inj hy]
        exact not_lt.1 h

theorem argmin_spec {l : List ℚ} (h : l ≠ []) : ∃ k x, argmin l = .ok (k, x) ∧ l[k]? = some x ∧ (∀ y ∈ l, x ≤ y) ∧
    ∀ j < k, ∀ y, l[j]? = some y → x < y := by
  cases l with
  | nil => exact absurd rfl h
  | cons x l =>
    have := argminFrom_spec l 0 x 1 (x :: l) (by omega) rfl (by omega) (by
      intro j hj y hy
      have : j = 0 := by omega
      subst this
      exact le_of_eq (by simpa using hy)) (by intro j; rw [Nat.add_comm]; simp)
    exact ⟨_, _, rfl, this⟩

theorem multinomial_spec {w : List ℚ} (hnn : ∀ x ∈ w, 0 ≤ x) (hp : ∃ x ∈ w, 0 < x) (pick : Nat) :
    ∃ y x, multinomial w pick = .ok y ∧ w[y]? = some x ∧ 0 < x := by
  obtain ⟨x₀, hx₀, hpos⟩ := hp
  have hs : 0 < w.sum := lt_of_lt_of_le hpos (List.single_le_sum hnn _ hx₀)
  unfold multinomial
  simp only
  rw [if_neg hs.ne', if_neg]
  · have hmem : ∀ y, y ∈ (w.zipIdx.filter (fun p => decide (0 < p.1 / w.sum))).map Prod.snd → ∃ x, w[y]? = some x ∧ 0 < x := by
      intro y hy
      obtain ⟨⟨a, b⟩, hab, rfl⟩ := List.mem_map.1 hy
      obtain ⟨h1, h2⟩ := List.mem_filter.1 hab
      have h1 := List.mem_zipIdx_iff_getElem?.1 h1
      simp only [decide_eq_true_eq] at h1 h2
      exact ⟨a, h1, (div_pos_iff_of_pos_right hs).1 h2⟩
    have hne : 0 < ((w.zipIdx.filter (fun p => decide (0 < p.1 / w.sum))).map Prod.snd).length := by
      obtain ⟨i, hi⟩ := List.mem_iff_getElem?.1 hx₀
      apply List.length_pos_of_mem (a := i)
      refine List.mem_map.2 ⟨(x₀, i), List.mem_filter.2 ⟨List.mem_zipIdx_iff_getElem?.2 hi, ?_⟩, rfl⟩
      simp only [decide_eq_true_eq]
      exact div_pos hpos hs
    have hlt := Nat.mod_lt pick hne
    obtain ⟨x, h1, h2⟩ := hmem _ (List.getElem_mem hlt)
    exact ⟨_, x, pyGet_ok.2 (List.getElem?_eq_getElem hlt), h1, h2⟩
  · rw [List.any_eq_true]
    rintro ⟨x, hx, h⟩
    simp only [decide_eq_true_eq] at h
    rcases h with h | h
    · exact absurd h (not_lt.2 (div_nonneg (hnn x hx) hs.le))
    · rw [one_lt_div hs] at h
      exact absurd h (not_lt.2 (List.single_le_sum hnn _ hx))

theorem idxOf_of_getElem? {l : List Label} (hn : l.Nodup) {k : Nat} {v : Label} (h : l[k]? = some v) : l.idxOf v = k := by
  obtain ⟨hk, rfl⟩ := List.getElem?_eq_some_iff.1 h
  exact hn.idxOf_getElem k hk

section
variable {net : SampleNet} {N : Ctbn} (hD : Describes net N) (hOK : N.OK)
include hOK

/-- Changing the variable in position `k`. -/
theorem state_set {vals : List Nat} (hl : vals.length = N.vars.length) {k : Nat} {v : Label} (hk : N.vars[k]? = some v) (y : Nat)
    {w : Label} (hw : w ∈ N.vars) : N.state (vals.set k y) w = if w = v then y else N.state vals w := by
  unfold Ctbn.state
  have hkl := (List.getElem?_eq_some_iff.1 hk).1
  split
  · rename_i h
    subst h
    rw [idxOf_of_getElem? hOK.nodup hk, List.getElem?_set_self (by omega)]; rfl
  · rename_i h
    rw [List.getElem?_set_ne]
    intro e
    apply h
    have := List.getElem?_idxOf hw
    rw [← e, hk] at this
    exact (Option.some.inj this).symm

theorem inRange_set {vals : List Nat} (hr : N.InRange vals) {k : Nat} {v : Label} (hk : N.vars[k]? = some v) {y : Nat}
    (hy : y < N.card v) : N.InRange (vals.set k y) := by
  refine ⟨by simpa using hr.1, fun w hw => ?_⟩
  rw [state_set hOK hr.1 hk y hw]
  split
  · rename_i h; rw [h]; exact hy
  · exact hr.2 w hw

include hD

/-- The undefined event times after a change of `v`. -/
theorem undefine_spec {k : Nat} {v : Label} {times : List ℚ} (hl : times.length = N.vars.length) :
    (net.undefine k v times).length = N.vars.length ∧
    ∀ (i : Nat) (w : Label) (x : ℚ), N.vars[i]? = some w → times[i]? = some x →
      (net.undefine k v times)[i]? = some (if i = k ∨ v ∈ N.parents w then none else some x) := by
  refine ⟨by simp [SampleNet.undefine, hl], ?_⟩
  intro i w x hw hx
  unfold SampleNet.undefine
  rw [List.getElem?_map, List.getElem?_zipIdx, hx, hD.parents]
  simp [List.getElem?_map, hw]

/-- One pass through the loop from a well-formed state. -/
theorem step_spec {tEnd : ℚ} {maxTr : ℤ} {draws : SampleDraws} {s : SampleState} {cur : ℚ × List Nat}
    (hcur : s.rows.getLast? = some cur) (hr : N.InRange cur.2) (ht : s.timers.length = N.vars.length) :
    ∃ times k t v, net.fillTimers cur.2 s.t (draws.exp s.nTr) s.timers = .ok times ∧ times.length = N.vars.length ∧
      N.vars[k]? = some v ∧ times[k]? = some t ∧ (∀ y ∈ times, t ≤ y) ∧
      ((SampleNet.stops tEnd maxTr t s.nTr = true ∧ net.step tEnd maxTr draws s = .ok (.done (SampleNet.terminate s.rows))) ∨
       (SampleNet.stops tEnd maxTr t s.nTr = false ∧ ∃ y, y < N.card v ∧ y ≠ N.state cur.2 v ∧ 0 < N.intensity cur.2 v y ∧
         net.step tEnd maxTr draws s =
           .ok (.next ⟨s.rows ++ [(round4 t, cur.2.set k y)], net.undefine k v times, t, s.nTr + 1⟩))) := by
  obtain ⟨times, h1, h2, h3⟩ := fillTimers_spec hD hOK hr s.t (draws.exp s.nTr) ht
  have hne : times ≠ [] := by
    intro e; rw [e] at h2; exact hOK.nonempty (List.length_eq_zero_iff.1 h2.symm)
  obtain ⟨k, t, a1, a2, a3, a4⟩ := argmin_spec hne
  have hk : k < N.vars.length := by rw [← h2]; exact (List.getElem?_eq_some_iff.1 a2).1
  have hkv := List.getElem?_eq_getElem hk
  have hv : N.vars[k] ∈ N.vars := List.getElem_mem hk
  refine ⟨times, k, t, N.vars[k], h1, h2, hkv, a2, a3, ?_⟩
  have hget : pyGet s.rows (s.rows.length - 1) = .ok cur := by
    rw [List.getLast?_eq_getElem?] at hcur
    exact pyGet_ok.2 hcur
  unfold SampleNet.step
  rw [hget]
  simp only [Except.bind_ok', h1, a1]
  cases hst : SampleNet.stops tEnd maxTr t s.nTr with
  | true => left; exact ⟨rfl, rfl⟩
  | false =>
    right
    refine ⟨rfl, ?_⟩
    obtain ⟨row, r1, r2, r3⟩ := row_spec hD hOK hr hv
    have hm := matrixOK hD hOK hr hv
    have hxc := hr.2 _ hv
    have hw : ∀ j < N.card N.vars[k], (row.set (N.state cur.2 N.vars[k]) 0)[j]? =
        some (if j = N.state cur.2 N.vars[k] then 0 else N.intensity cur.2 N.vars[k] j) := by
      intro j hj
      split
      · rename_i h; subst h; rw [List.getElem?_set_self (by omega)]
      · rename_i h
        rw [List.getElem?_set_ne (Ne.symm h), r3 j hj]
    have hmem : ∀ x ∈ row.set (N.state cur.2 N.vars[k]) 0, ∃ j < N.card N.vars[k],
        x = if j = N.state cur.2 N.vars[k] then 0 else N.intensity cur.2 N.vars[k] j := by
      intro x hx
      obtain ⟨j, hj⟩ := List.mem_iff_getElem?.1 hx
      have hjc : j < N.card N.vars[k] := by
        rw [← r2]; simpa using (List.getElem?_eq_some_iff.1 hj).1
      rw [hw j hjc] at hj
      exact ⟨j, hjc, (Option.some.inj hj).symm⟩
    obtain ⟨y, x, m1, m2, m3⟩ := multinomial_spec (w := row.set (N.state cur.2 N.vars[k]) 0) (by
        intro x hx
        obtain ⟨j, hj, rfl⟩ := hmem x hx
        split
        · exact le_refl _
        · rename_i h; exact hm.off _ hxc j hj h) (by
        obtain ⟨j, hj, hji, hjp⟩ := hm.leaves _ hxc
        refine ⟨_, List.mem_of_getElem? (hw j hj), ?_⟩
        rw [if_neg hji]; exact hjp) (draws.pick s.nTr)
    have hyc : y < N.card N.vars[k] := by
      rw [← r2]; simpa using (List.getElem?_eq_some_iff.1 m2).1
    rw [hw y hyc] at m2
    have m2 := Option.some.inj m2
    have hyx : y ≠ N.state cur.2 N.vars[k] := by
      intro e; rw [if_pos e] at m2; rw [← m2] at m3; exact lt_irrefl _ m3
    rw [if_neg hyx] at m2
    refine ⟨y, hyc, hyx, by rw [m2]; exact m3, ?_⟩
    rw [if_neg (by simp), hD.vnames, pyGet_ok.2 hkv]
    simp only [Except.bind_ok']
    rw [cimOf_spec hD hOK hr hv, valueOf_spec hD hr hv]
    simp only [Except.bind_ok']
    rw [pyGet_ok.2 r1]
    simp only [Except.bind_ok']
    rw [m1]
    rfl

end

end PyCTBN
