import Verif.Spec.FloatSample
import Verif.Lemmas.Float
import Verif.Props.TrajGen

/-!
# Lemmas about sampling in floating point
-/

namespace PyCTBN
open Spec

/-! ## Binary rounding is a floating-point rounding -/

theorem zpow_log_bounds {x : ℚ} (hx : 0 < x) : (2 : ℚ) ^ Int.log 2 x ≤ x ∧ x < 2 ^ (Int.log 2 x + 1) := by
  have h1 := Int.zpow_log_le_self (b := 2) (by norm_num) hx
  have h2 := Int.lt_zpow_succ_log_self (b := 2) (by norm_num) x
  exact ⟨by simpa using h1, by simpa using h2⟩

theorem binRound_mono (p : Nat) (hp : 0 < p) (x y : ℚ) (h0 : 0 ≤ x) (hxy : x ≤ y) : binRound p x ≤ binRound p y := by
  have hz : binRound p 0 = 0 := by simp [binRound, show rint (0 : ℚ) = 0 by simpa using rint_int 0]
  have hnn : ∀ y, 0 ≤ y → 0 ≤ binRound p y := by
    intro y hy
    unfold binRound
    dsimp only
    have hulp : (0 : ℚ) < 2 ^ (Int.log 2 |y| - p + 1) := zpow_pos (by norm_num) _
    have : rint (0 : ℚ) ≤ rint (y / 2 ^ (Int.log 2 |y| - p + 1)) := rint_mono (div_nonneg hy hulp.le)
    have h00 : rint (0 : ℚ) = 0 := by simpa using rint_int 0
    rw [h00] at this
    exact mul_nonneg (by exact_mod_cast this) hulp.le
  rcases h0.eq_or_lt with rfl | hx
  · rw [hz]; exact hnn y hxy
  have hy := hx.trans_le hxy
  obtain ⟨x1, x2⟩ := zpow_log_bounds hx
  obtain ⟨y1, y2⟩ := zpow_log_bounds hy
  unfold binRound
  rw [abs_of_pos hx, abs_of_pos hy]
  dsimp only
  have hle : Int.log 2 x ≤ Int.log 2 y := Int.log_mono_right hx hxy
  rcases hle.eq_or_lt with he | hlt
  · rw [he]
    have hulp : (0 : ℚ) < 2 ^ (Int.log 2 y - p + 1) := zpow_pos (by norm_num) _
    have := rint_mono (div_le_div_of_nonneg_right hxy hulp.le)
    exact mul_le_mul_of_nonneg_right (by exact_mod_cast this) hulp.le
  · have hux : (0 : ℚ) < 2 ^ (Int.log 2 x - p + 1) := zpow_pos (by norm_num) _
    have huy : (0 : ℚ) < 2 ^ (Int.log 2 y - p + 1) := zpow_pos (by norm_num) _
    calc (rint (x / 2 ^ (Int.log 2 x - p + 1)) : ℚ) * 2 ^ (Int.log 2 x - p + 1)
        ≤ 2 ^ p * 2 ^ (Int.log 2 x - p + 1) := by
          apply mul_le_mul_of_nonneg_right _ hux.le
          have h1 : x / 2 ^ (Int.log 2 x - p + 1) ≤ ((2 ^ p : ℤ) : ℚ) := by
            rw [div_le_iff₀ hux]
            push_cast
            rw [← zpow_natCast, ← zpow_add₀ (by norm_num)]
            rw [show (p : ℤ) + (Int.log 2 x - p + 1) = Int.log 2 x + 1 by ring]
            exact x2.le
          have := rint_mono h1
          rw [rint_int] at this
          exact_mod_cast this
      _ = 2 ^ (Int.log 2 x + 1) := by
          rw [← zpow_natCast, ← zpow_add₀ (by norm_num)]; congr 1; ring
      _ ≤ 2 ^ Int.log 2 y := zpow_le_zpow_right₀ (by norm_num) (by omega)
      _ = 2 ^ (p - 1) * 2 ^ (Int.log 2 y - p + 1) := by
          rw [← zpow_natCast, ← zpow_add₀ (by norm_num)]; congr 1
          push_cast [Nat.cast_sub (show 1 ≤ p from hp)]; ring
      _ ≤ (rint (y / 2 ^ (Int.log 2 y - p + 1)) : ℚ) * 2 ^ (Int.log 2 y - p + 1) := by
          apply mul_le_mul_of_nonneg_right _ huy.le
          have h1 : ((2 ^ (p - 1) : ℤ) : ℚ) ≤ y / 2 ^ (Int.log 2 y - p + 1) := by
            rw [le_div_iff₀ huy]
            push_cast
            rw [← zpow_natCast, ← zpow_add₀ (by norm_num)]
            rw [show ((p - 1 : Nat) : ℤ) + (Int.log 2 y - p + 1) = Int.log 2 y by
              push_cast [Nat.cast_sub (show 1 ≤ p from hp)]; ring]
            exact y1
          have := rint_mono h1
          rw [rint_int] at this
          exact_mod_cast this

theorem binRound_idem (p : Nat) (hp : 0 < p) (x : ℚ) : binRound p (binRound p x) = binRound p x := by
  by_cases hx : x = 0
  · subst hx
    simp [binRound, show rint (0 : ℚ) = 0 by simpa using rint_int 0]
  · have hx' : 0 < |x| := abs_pos.2 hx
    obtain ⟨x1, x2⟩ := zpow_log_bounds hx'
    have hux : (0 : ℚ) < 2 ^ (Int.log 2 |x| - p + 1) := zpow_pos (by norm_num) _
    have hdef : binRound p x = (rint (x / 2 ^ (Int.log 2 |x| - p + 1)) : ℚ) * 2 ^ (Int.log 2 |x| - p + 1) := rfl
    rw [hdef]
    apply binRound_exact p hp
    have hb : |x / 2 ^ (Int.log 2 |x| - p + 1)| ≤ 2 ^ p := by
      rw [abs_div, abs_of_pos hux, div_le_iff₀ hux, ← zpow_natCast, ← zpow_add₀ (by norm_num)]
      rw [show (p : ℤ) + (Int.log 2 |x| - p + 1) = Int.log 2 |x| + 1 by ring]
      exact x2.le
    rw [abs_le] at hb
    have h1 := rint_mono (q := ((-(2 ^ p) : ℤ) : ℚ)) (r := x / 2 ^ (Int.log 2 |x| - p + 1)) (by push_cast; exact hb.1)
    have h2 := rint_mono (r := ((2 ^ p : ℤ) : ℚ)) (q := x / 2 ^ (Int.log 2 |x| - p + 1)) (by push_cast; exact hb.2)
    rw [rint_int] at h1 h2
    zify
    rw [abs_le]
    exact ⟨h1, h2⟩

theorem binRound_floatRounding (p : Nat) (hp : 0 < p) : FloatRounding (1 / 2 ^ p) (binRound p) where
  accurate := binRound_accurate p
  mono := binRound_mono p hp
  idem := binRound_idem p hp
  one := by
    have := binRound_exactInts p hp 1 (by simpa using Nat.one_le_two_pow)
    simpa using this


/-! ## The multinomial draw -/

section
variable {u : ℚ} {rnd : ℚ → ℚ}

theorem rnd_nonneg (h0 : 0 ≤ u) (h1 : u < 1) (hF : FloatRounding u rnd) {x : ℚ} (hx : 0 ≤ x) : 0 ≤ rnd x := by
  have := hF.mono 0 x le_rfl hx
  rwa [accurate_zero hF.accurate] at this

theorem rnd_pos (h0 : 0 ≤ u) (h1 : u < 1) (hF : FloatRounding u rnd) {x : ℚ} : 0 < rnd x ↔ 0 < x :=
  (near_sign h0 h1 (near_rnd h0 h1 hF.accurate x)).2.1

theorem multiDraw_spec (h0 : 0 ≤ u) (h1 : u < 1) (hF : FloatRounding u rnd) (coin : Nat → Bool) :
    ∀ (p : List ℚ) (rem : ℚ) (j : Nat), p ≠ [] → (∀ x ∈ p, 0 ≤ x) → 0 < rem →
      ∃ i x, multiDraw rnd coin p rem j = j + i ∧ p[i]? = some x ∧ (0 < x ∨ i + 1 = p.length) := by
  intro p
  induction p with
  | nil => intro _ _ h; exact absurd rfl h
  | cons p ps ih =>
    intro rem j _ hnn hrem
    cases ps with
    | nil => exact ⟨0, p, rfl, rfl, .inr rfl⟩
    | cons q ps =>
      rw [multiDraw]
      split
      · rename_i h
        refine ⟨0, p, rfl, rfl, .inl ?_⟩
        have : 0 < rnd (p / rem) := by
          rcases h with h | h
          · linarith
          · exact h.1
        rw [rnd_pos h0 h1 hF] at this
        exact (div_pos_iff_of_pos_right hrem).1 this
      · rename_i h
        rw [not_or, not_le] at h
        have hlt : p < rem := by
          by_contra hc
          have := hF.mono 1 (p / rem) zero_le_one ((one_le_div hrem).2 (not_lt.1 hc))
          rw [hF.one] at this
          linarith [h.1]
        obtain ⟨i, x, e1, e2, e3⟩ := ih (rnd (rem - p)) (j + 1) (by simp) (fun x hx => hnn x (by simp [List.mem_cons.1 hx]))
          ((rnd_pos h0 h1 hF).2 (by linarith))
        refine ⟨i + 1, x, by rw [e1]; omega, by simpa using e2, ?_⟩
        rcases e3 with e | e
        · exact .inl e
        · right; simp only [List.length_cons] at e ⊢; omega

theorem foldl_ge (h0 : 0 ≤ u) (h1 : u < 1) (hF : FloatRounding u rnd) : ∀ (w : List ℚ) (a : ℚ), 0 ≤ a → rnd a = a →
    (∀ x ∈ w, 0 ≤ x) → (∀ x ∈ w, rnd x = x) →
    a ≤ w.foldl (fun a w => rnd (a + w)) a ∧ ∀ x ∈ w, x ≤ w.foldl (fun a w => rnd (a + w)) a := by
  intro w
  induction w with
  | nil => intro a _ _ _ _; simp
  | cons y w ih =>
    intro a ha hra hnn hrep
    have hy := hnn y (by simp)
    have h1' : a ≤ rnd (a + y) := by
      have := hF.mono a (a + y) ha (by linarith); rwa [hra] at this
    have h2' : y ≤ rnd (a + y) := by
      have := hF.mono y (a + y) hy (by linarith); rwa [hrep y (by simp)] at this
    obtain ⟨i1, i2⟩ := ih (rnd (a + y)) (ha.trans h1') (hF.idem _) (fun x hx => hnn x (by simp [hx])) (fun x hx => hrep x (by simp [hx]))
    simp only [List.foldl_cons]
    refine ⟨h1'.trans i1, ?_⟩
    intro x hx
    rcases List.mem_cons.1 hx with rfl | hx
    · exact h2'.trans i1
    · exact i2 x hx

theorem forall₂_same_map {α β γ : Type _} (l : List α) (f : α → β) (g : α → γ) {R : β → γ → Prop} (h : ∀ x ∈ l, R (f x) (g x)) :
    List.Forall₂ R (l.map f) (l.map g) := by
  rw [List.forall₂_map_left_iff, List.forall₂_map_right_iff, List.forall₂_same]
  exact h

/-- numpy's draw on a row of non-negative floats, one of them positive, never fails; it returns an index of positive weight or,
among three or more, possibly the last index whatever its weight. -/
theorem multinomialF_spec (h0 : 0 ≤ u) (h1 : u < 1) (hF : FloatRounding u rnd) {w : List ℚ} (hnn : ∀ x ∈ w, 0 ≤ x)
    (hrep : ∀ x ∈ w, rnd x = x) (hpos : ∃ x ∈ w, 0 < x) (hc : 1 ≤ rnd (1 + rnd (1 / 10 ^ 12)) * (1 - u) ^ (2 * w.length + 2)) (coin : Nat → Bool) :
    ∃ y x, multinomialF rnd w coin = .ok y ∧ w[y]? = some x ∧ (0 < x ∨ (y + 1 = w.length ∧ 3 ≤ w.length)) := by
  obtain ⟨x₀, hx₀, hp₀⟩ := hpos
  obtain ⟨-, hle⟩ := foldl_ge h0 h1 hF w 0 le_rfl (accurate_zero hF.accurate) hnn hrep
  have hs : 0 < fsum rnd w := lt_of_lt_of_le hp₀ (hle x₀ hx₀)
  have hle : ∀ x ∈ w, x ≤ fsum rnd w := hle
  have hsn : Near u w.length (fsum rnd w) w.sum := by
    have := fsum_near (k := 0) (ws := w) (ws' := w) h0 h1 hF.accurate (by rw [List.forall₂_same]; exact fun x hx => ⟨near_refl x, hnn x hx⟩)
    rwa [Nat.zero_add] at this
  have hpnn : ∀ x ∈ w, 0 ≤ rnd (x / fsum rnd w) := fun x hx => rnd_nonneg h0 h1 hF (div_nonneg (hnn x hx) hs.le)
  have hp1 : ∀ x ∈ w, rnd (x / fsum rnd w) ≤ 1 := by
    intro x hx
    have := hF.mono (x / fsum rnd w) 1 (div_nonneg (hnn x hx) hs.le) ((div_le_one hs).2 (hle x hx))
    rwa [hF.one] at this
  have hwne : w ≠ [] := by rintro rfl; simp at hx₀
  unfold multinomialF
  dsimp only
  rw [if_neg hs.ne', if_neg, if_neg]
  · obtain ⟨i, x, e1, e2, e3⟩ := multiDraw_spec h0 h1 hF coin (w.map (fun x => rnd (x / fsum rnd w))) 1 0 (by simpa using hwne)
      (by simpa using hpnn) zero_lt_one
    rw [List.getElem?_map] at e2
    cases hwi : w[i]? with
    | none => rw [hwi] at e2; cases e2
    | some z =>
      rw [hwi] at e2
      simp only [Option.map_some, Option.some.injEq] at e2
      refine ⟨i, z, by rw [e1, Nat.zero_add], hwi, ?_⟩
      have hz := List.mem_of_getElem? hwi
      by_cases hzp : 0 < z
      · exact .inl hzp
      right
      have hxnp : ¬ 0 < x := by
        rw [← e2, rnd_pos h0 h1 hF]
        intro h
        exact hzp ((div_pos_iff_of_pos_right hs).1 h)
      rcases e3 with e | e
      · exact absurd e hxnp
      rw [List.length_map] at e
      refine ⟨e, ?_⟩
      have hz0 : z = 0 := le_antisymm (not_lt.1 hzp) (hnn z hz)
      by_contra hlt
      rw [not_le] at hlt
      match w, hlt, hwi, hx₀, e, e1, hnn, hrep, hs with
      | [a], _, hwi, hx₀, e, _, _, _, _ =>
        simp at e; subst e
        simp at hwi hx₀
        rw [hx₀, hwi, hz0] at hp₀
        exact lt_irrefl _ hp₀
      | [a, b], _, hwi, hx₀, e, e1, hnn, hrep, hs =>
        simp at e; subst e
        simp at hwi hx₀
        rw [hz0] at hwi
        subst hwi
        have ha : 0 < a := by
          rcases hx₀ with rfl | rfl
          · exact hp₀
          · exact absurd hp₀ (lt_irrefl _)
        have hsum : fsum rnd [a, 0] = a := by
          simp [fsum, hrep a (by simp)]
        rw [hsum] at e1
        simp only [List.map_cons, List.map_nil] at e1
        rw [multiDraw, if_pos] at e1
        · cases e1
        · left
          rw [div_self ha.ne', hF.one]; simp [hF.one]
  · rw [not_lt]
    have hnear : List.Forall₂ (fun a b => Near u 1 a b ∧ 0 ≤ b) (w.map (fun x => rnd (x / fsum rnd w))).dropLast (w.map (fun x => x / fsum rnd w)).dropLast := by
      rw [← List.map_dropLast, ← List.map_dropLast]
      apply forall₂_same_map
      intro x hx
      exact ⟨near_rnd h0 h1 hF.accurate _, div_nonneg (hnn x (List.dropLast_subset _ hx)) hs.le⟩
    have hfs := fsum_near h0 h1 hF.accurate hnear
    have hsum : (w.map (fun x => x / fsum rnd w)).dropLast.sum ≤ ((1 - u) ^ w.length)⁻¹ := by
      calc (w.map (fun x => x / fsum rnd w)).dropLast.sum = w.dropLast.sum / fsum rnd w := by
            rw [← List.map_dropLast]; simp only [div_eq_mul_inv, List.sum_map_mul_right, List.map_id']
        _ ≤ w.sum / fsum rnd w := by
            apply div_le_div_of_nonneg_right _ hs.le
            have := List.dropLast_append_getLast hwne
            conv_rhs => rw [← this, List.sum_append]
            have := hnn _ (List.getLast_mem hwne)
            simp only [List.sum_singleton]; linarith
        _ ≤ ((1 - u) ^ w.length)⁻¹ := by
            rw [div_le_iff₀ hs]
            have := (near_bounds (List.sum_nonneg hnn) hsn).1
            have hp := (pow_le_one_sub h0 h1 w.length).1
            rw [← div_eq_inv_mul, le_div_iff₀ hp, mul_comm]; exact this
    have hnn2 : 0 ≤ (w.map (fun x => x / fsum rnd w)).dropLast.sum := by
      apply List.sum_nonneg
      intro y hy
      obtain ⟨x, hx, rfl⟩ := List.mem_map.1 (List.dropLast_subset _ hy)
      exact div_nonneg (hnn x hx) hs.le
    have hb := (near_bounds hnn2 hfs).2
    have hp := fun m => (pow_le_one_sub h0 h1 m).1
    refine hb.trans ?_
    have hlen : 1 + (w.map (fun x => rnd (x / fsum rnd w))).dropLast.length ≤ w.length + 2 := by simp; omega
    calc ((1 - u) ^ (1 + (w.map (fun x => rnd (x / fsum rnd w))).dropLast.length))⁻¹ * (w.map (fun x => x / fsum rnd w)).dropLast.sum
        ≤ ((1 - u) ^ (w.length + 2))⁻¹ * ((1 - u) ^ w.length)⁻¹ := by
          apply mul_le_mul _ hsum hnn2 (inv_nonneg.2 (hp _).le)
          apply inv_anti₀ (hp _)
          exact pow_le_pow_of_le_one (by linarith) (by linarith) hlen
      _ = ((1 - u) ^ (2 * w.length + 2))⁻¹ := by
          rw [← mul_inv, ← pow_add]; congr 2; ring
      _ ≤ rnd (1 + rnd (1 / 10 ^ 12)) := by
          rw [inv_le_iff_one_le_mul₀ (hp _)]; exact hc
  · rw [List.any_eq_true]
    rintro ⟨y, hy, h⟩
    obtain ⟨x, hx, rfl⟩ := List.mem_map.1 hy
    simp only [decide_eq_true_eq] at h
    rcases h with h | h
    · exact absurd (hpnn x hx) (not_le.2 h)
    · exact absurd (hp1 x hx) (not_le.2 h)

end


/-! ## The loop -/

section
variable {u : ℚ} {rnd : ℚ → ℚ} {net : SampleNet} {N : Ctbn} {tEnd : ℚ} {maxTr : ℤ} {draws : SampleDrawsF}

theorem fillTimersF_spec (hD : Describes net N) (hOK : N.OK) {vals : List Nat} (hr : N.InRange vals) (t : ℚ) (e : Nat → ℚ) {timers : List (Option ℚ)}
    (hl : timers.length = N.vars.length) :
    ∃ times, net.fillTimersF rnd vals t e timers = .ok times ∧ times.length = N.vars.length ∧
      ∀ (i : Nat) (v : Label) (o : Option ℚ), N.vars[i]? = some v → timers[i]? = some o →
        times[i]? = some (o.getD (rnd (t + rnd (N.exitRate vals v * e i)))) := by
  unfold SampleNet.fillTimersF
  obtain ⟨times, h1, h2⟩ := mapM_ok_of_forall (fun p : Option ℚ × Nat =>
    match p.1 with
    | some x => (.ok x : Py ℚ)
    | none => do
      let v ← pyGet net.vnames p.2
      let q ← net.scaleOf vals v
      return rnd (t + rnd (q * e p.2))) timers.zipIdx (by
    rintro ⟨o, i⟩ hoi
    have ho := List.mem_zipIdx_iff_getElem?.1 hoi
    simp only at ho
    cases o with
    | some x => exact ⟨x, rfl⟩
    | none =>
      have hi : i < N.vars.length := by rw [← hl]; exact (List.getElem?_eq_some_iff.1 ho).1
      dsimp only
      rw [hD.vnames, pyGet_ok.2 (List.getElem?_eq_getElem hi)]
      simp only [Except.bind_ok']
      rw [scaleOf_spec hD hOK hr (List.getElem_mem hi)]
      exact ⟨_, rfl⟩)
  have hf := mapM_ok_mem h1
  have hlen : times.length = N.vars.length := by rw [← hf.length_eq]; simpa using hl
  refine ⟨times, h1, hlen, ?_⟩
  intro i v o hv ho
  have hi := (List.getElem?_eq_some_iff.1 ho).1
  have hit : i < times.length := by rw [hlen, ← hl]; exact hi
  have hg := List.Forall₂.get hf (by simpa using hi) hit
  have hoe := (List.getElem?_eq_some_iff.1 ho).2
  simp only [List.get_eq_getElem, List.getElem_zipIdx, Nat.zero_add, hoe] at hg
  rw [List.getElem?_eq_getElem hit]
  cases o with
  | some x =>
    simp only [Except.ok.injEq] at hg
    rw [← hg]; rfl
  | none =>
    simp only at hg
    rw [hD.vnames, pyGet_ok.2 hv] at hg
    simp only [Except.bind_ok'] at hg
    rw [scaleOf_spec hD hOK hr (List.mem_of_getElem? hv)] at hg
    simp only [Except.bind_ok', Except.pure_eq_ok', Except.ok.injEq] at hg
    rw [← hg]; rfl

/-- One pass through the loop from a well-formed state. -/
theorem stepF_spec (h0 : 0 ≤ u) (h1 : u < 1) (hF : FloatRounding u rnd) (hN : FloatNet u rnd N) (hD : Describes net N) (hOK : N.OK)
    {s : SampleState} {cur : ℚ × List Nat}
    (hcur : s.rows.getLast? = some cur) (hr : N.InRange cur.2) (ht : s.timers.length = N.vars.length) :
    ∃ times k t v, net.fillTimersF rnd cur.2 s.t (draws.exp s.nTr) s.timers = .ok times ∧ times.length = N.vars.length ∧
      N.vars[k]? = some v ∧ times[k]? = some t ∧ (∀ y ∈ times, t ≤ y) ∧
      ((SampleNet.stops tEnd maxTr t s.nTr = true ∧ net.stepF rnd tEnd maxTr draws s = .ok (.done (SampleNet.terminate s.rows))) ∨
       (SampleNet.stops tEnd maxTr t s.nTr = false ∧ ∃ y, y < N.card v ∧
         ((y ≠ N.state cur.2 v ∧ 0 < N.intensity cur.2 v y) ∨
          (y + 1 = N.card v ∧ 3 ≤ N.card v ∧ (y = N.state cur.2 v ∨ N.intensity cur.2 v y = 0))) ∧
         net.stepF rnd tEnd maxTr draws s =
           .ok (.next ⟨s.rows ++ [(round4F rnd t, cur.2.set k y)], net.undefine k v times, t, s.nTr + 1⟩))) := by
  obtain ⟨times, t1, h2, h3⟩ := fillTimersF_spec (rnd := rnd) hD hOK hr s.t (draws.exp s.nTr) ht
  have hne : times ≠ [] := by
    intro e; rw [e] at h2; exact hOK.nonempty (List.length_eq_zero_iff.1 h2.symm)
  obtain ⟨k, t, a1, a2, a3, a4⟩ := argmin_spec hne
  have hk : k < N.vars.length := by rw [← h2]; exact (List.getElem?_eq_some_iff.1 a2).1
  have hkv := List.getElem?_eq_getElem hk
  have hv : N.vars[k] ∈ N.vars := List.getElem_mem hk
  refine ⟨times, k, t, N.vars[k], t1, h2, hkv, a2, a3, ?_⟩
  have hget : pyGet s.rows (s.rows.length - 1) = .ok cur := by
    rw [List.getLast?_eq_getElem?] at hcur
    exact pyGet_ok.2 hcur
  unfold SampleNet.stepF
  rw [hget]
  simp only [Except.bind_ok', t1, a1]
  cases hst : SampleNet.stops tEnd maxTr t s.nTr with
  | true => left; exact ⟨rfl, rfl⟩
  | false =>
    right
    refine ⟨rfl, ?_⟩
    obtain ⟨row, r1, r2, r3⟩ := row_spec hD hOK hr hv
    have hm := matrixOK hD hOK hr hv
    have hxc := hr.2 _ hv
    have hw : ∀ j < N.card N.vars[k], (row.set (N.state cur.2 N.vars[k]) 0)[j]? =
        some (if j = N.state cur.2 N.vars[k] then 0 else N.intensity cur.2 N.vars[k] j) := by
      intro j hj
      split
      · rename_i h; subst h; rw [List.getElem?_set_self (by omega)]
      · rename_i h
        rw [List.getElem?_set_ne (Ne.symm h), r3 j hj]
    have hmem : ∀ x ∈ row.set (N.state cur.2 N.vars[k]) 0, ∃ j < N.card N.vars[k],
        x = if j = N.state cur.2 N.vars[k] then 0 else N.intensity cur.2 N.vars[k] j := by
      intro x hx
      obtain ⟨j, hj⟩ := List.mem_iff_getElem?.1 hx
      have hjc : j < N.card N.vars[k] := by
        rw [← r2]; simpa using (List.getElem?_eq_some_iff.1 hj).1
      rw [hw j hjc] at hj
      exact ⟨j, hjc, (Option.some.inj hj).symm⟩
    have hwl : (row.set (N.state cur.2 N.vars[k]) 0).length = N.card N.vars[k] := by simpa using r2
    have hnonneg : ∀ j < N.card N.vars[k], j ≠ N.state cur.2 N.vars[k] → 0 ≤ N.intensity cur.2 N.vars[k] j :=
      fun j hj h => hm.off _ hxc j hj h
    obtain ⟨y, x, m1, m2, m3⟩ := multinomialF_spec h0 h1 hF (w := row.set (N.state cur.2 N.vars[k]) 0) (by
        intro x hx
        obtain ⟨j, hj, rfl⟩ := hmem x hx
        split
        · exact le_refl _
        · rename_i h; exact hnonneg j hj h) (by
        intro x hx
        obtain ⟨j, hj, rfl⟩ := hmem x hx
        split
        · exact accurate_zero hF.accurate
        · refine hN.floats _ hv _ (parentStates_inRange hD hOK hr hv) row (List.mem_of_getElem? r1) _ (List.mem_of_getElem? (r3 j hj))) (by
        obtain ⟨j, hj, hji, hjp⟩ := hm.leaves _ hxc
        refine ⟨_, List.mem_of_getElem? (hw j hj), ?_⟩
        rw [if_neg hji]; exact hjp) (by rw [hwl]; exact hN.small _ hv) (draws.coin s.nTr)
    have hyc : y < N.card N.vars[k] := by
      rw [← hwl]; exact (List.getElem?_eq_some_iff.1 m2).1
    rw [hw y hyc] at m2
    have m2 := Option.some.inj m2
    rw [hwl] at m3
    refine ⟨y, hyc, ?_, ?_⟩
    · by_cases hyx : y = N.state cur.2 N.vars[k]
      · right
        rw [if_pos hyx] at m2
        rcases m3 with m3 | m3
        · rw [← m2] at m3; exact absurd m3 (lt_irrefl _)
        · exact ⟨m3.1, m3.2, .inl hyx⟩
      · rw [if_neg hyx] at m2
        rcases (hnonneg y hyc hyx).eq_or_lt with he | hlt
        · right
          rcases m3 with m3 | m3
          · rw [← m2, ← he] at m3; exact absurd m3 (lt_irrefl _)
          · exact ⟨m3.1, m3.2, .inr he.symm⟩
        · exact .inl ⟨hyx, hlt⟩
    rw [if_neg (by simp), hD.vnames, pyGet_ok.2 hkv]
    simp only [Except.bind_ok']
    rw [cimOf_spec hD hOK hr hv, valueOf_spec hD hr hv]
    simp only [Except.bind_ok']
    rw [pyGet_ok.2 r1]
    simp only [Except.bind_ok']
    rw [m1]
    rfl

/-- What holds of every state the loop goes through. -/
structure GoodStateF (N : Ctbn) (s : SampleState) : Prop where
  len : s.rows.length = s.nTr + 1
  inRange : ∀ r ∈ s.rows, N.InRange r.2
  first : s.rows[0]? = some (0, N.vars.map (fun _ => 0))
  moves : ∀ (n : Nat) (a b : ℚ × List Nat), s.rows[n]? = some a → s.rows[n + 1]? = some b → Genuine N a.2 b.2 ∨ Phantom N a.2 b.2
  timers : s.timers.length = N.vars.length

theorem GoodStateF.last {s : SampleState} (h : GoodStateF N s) : ∃ cur, s.rows.getLast? = some cur ∧ s.rows[s.nTr]? = some cur ∧ N.InRange cur.2 := by
  have hne : s.rows ≠ [] := by intro e; have := h.len; rw [e] at this; simp at this
  refine ⟨_, List.getLast?_eq_some_getLast hne, ?_, h.inRange _ (List.getLast_mem hne)⟩
  rw [← List.getLast?_eq_some_getLast hne, List.getLast?_eq_getElem?, h.len]
  rfl

theorem goodF_init (hD : Describes net N) (hOK : N.OK) : GoodStateF N net.initState := by
  have h := good_init hD hOK
  refine ⟨h.len, h.inRange, h.first, ?_, h.timers⟩
  intro n a b _ hb
  simp [SampleNet.initState] at hb

theorem goodF_step (h0 : 0 ≤ u) (h1 : u < 1) (hF : FloatRounding u rnd) (hN : FloatNet u rnd N) (hD : Describes net N) (hOK : N.OK)
    {s s' : SampleState} (h : GoodStateF N s) (hs : net.stepF rnd tEnd maxTr draws s = .ok (.next s')) : GoodStateF N s' := by
  obtain ⟨cur, c1, c2, c3⟩ := h.last
  obtain ⟨times, k, t, v, e1, e2, e3, e4, e5, e6⟩ := stepF_spec (tEnd := tEnd) (maxTr := maxTr) (draws := draws) h0 h1 hF hN hD hOK c1 c3 h.timers
  rcases e6 with ⟨-, e⟩ | ⟨-, y, y1, y2, e⟩
  · rw [hs] at e; cases e
  · rw [hs] at e
    simp only [Except.ok.injEq, SampleStep.next.injEq] at e
    subst e
    refine ⟨by simp [h.len], ?_, ?_, ?_, (undefine_spec hD hOK e2).1⟩
    · intro r hr
      rcases List.mem_append.1 hr with hr | hr
      · exact h.inRange r hr
      · rw [List.mem_singleton] at hr
        subst hr
        exact inRange_set hOK c3 e3 y1
    · show (s.rows ++ _)[0]? = _
      rw [List.getElem?_append_left (by rw [h.len]; omega)]
      exact h.first
    · intro n a b ha hb
      dsimp only at ha hb
      rcases Nat.lt_or_ge (n + 1) s.rows.length with hn | hn
      · rw [List.getElem?_append_left (by omega)] at ha hb
        exact h.moves n a b ha hb
      · have hn1 : n + 1 < (s.rows ++ [(round4F rnd t, cur.2.set k y)]).length := (List.getElem?_eq_some_iff.1 hb).1
        have hn2 : n + 1 = s.rows.length := by simp at hn1; omega
        rw [hn2, List.getElem?_append_right (le_refl _)] at hb
        simp only [Nat.sub_self, List.getElem?_cons_zero, Option.some.injEq] at hb
        rw [List.getElem?_append_left (by omega)] at ha
        have : n = s.nTr := by rw [h.len] at hn2; omega
        rw [this, c2] at ha
        cases Option.some.inj ha
        subst hb
        rcases y2 with y2 | y2
        · exact .inl ⟨k, v, y, e3, y1, y2.1, y2.2, rfl⟩
        · exact .inr ⟨k, v, y, e3, y2.1, y2.2.1, y2.2.2, rfl⟩

theorem goodF_of_visits (h0 : 0 ≤ u) (h1 : u < 1) (hF : FloatRounding u rnd) (hN : FloatNet u rnd N) (hD : Describes net N) (hOK : N.OK)
    {s : SampleState} (h : VisitsF rnd net tEnd maxTr draws s) : GoodStateF N s := by
  induction h with
  | init => exact goodF_init hD hOK
  | step _ hs ih => exact goodF_step h0 h1 hF hN hD hOK ih hs

theorem samplesF_visits {rows : RawTraj} (h : SamplesF rnd net tEnd maxTr draws rows) :
    ∃ s, VisitsF rnd net tEnd maxTr draws s ∧ net.stepF rnd tEnd maxTr draws s = .ok (.done rows) := by
  obtain ⟨fuel, h⟩ := h
  have : ∀ fuel s, VisitsF rnd net tEnd maxTr draws s → net.runF rnd tEnd maxTr draws fuel s = .ok rows →
      ∃ s, VisitsF rnd net tEnd maxTr draws s ∧ net.stepF rnd tEnd maxTr draws s = .ok (.done rows) := by
    intro fuel
    induction fuel with
    | zero => intro s _ h; cases h
    | succ fuel ih =>
      intro s hv h
      rw [SampleNet.runF] at h
      cases hs : net.stepF rnd tEnd maxTr draws s with
      | error e => rw [hs] at h; simp at h
      | ok o =>
        rw [hs] at h
        simp only [Except.bind_ok'] at h
        cases o with
        | done r =>
          simp only [Except.pure_eq_ok', Except.ok.injEq] at h
          subst h
          exact ⟨s, hv, hs⟩
        | next s' => exact ih s' (.step hv hs) h
  exact this fuel _ .init h

theorem doneF_rows (h0 : 0 ≤ u) (h1 : u < 1) (hF : FloatRounding u rnd) (hN : FloatNet u rnd N) (hD : Describes net N) (hOK : N.OK)
    {s : SampleState} (hv : VisitsF rnd net tEnd maxTr draws s) {rows : RawTraj}
    (hs : net.stepF rnd tEnd maxTr draws s = .ok (.done rows)) : rows = SampleNet.terminate s.rows := by
  have h := goodF_of_visits h0 h1 hF hN hD hOK hv
  obtain ⟨cur, c1, c2, c3⟩ := h.last
  obtain ⟨times, k, t, v, e1, e2, e3, e4, e5, e6⟩ := stepF_spec (tEnd := tEnd) (maxTr := maxTr) (draws := draws) h0 h1 hF hN hD hOK c1 c3 h.timers
  rcases e6 with ⟨-, e⟩ | ⟨-, y, y1, y2, e⟩
  · rw [hs] at e; simpa using e
  · rw [hs] at e; cases e

/-! ## Times -/

theorem rint_nonneg {q : ℚ} (h : 0 ≤ q) : 0 ≤ rint q := by
  have := rint_mono h
  have h00 : rint (0 : ℚ) = 0 := by simpa using rint_int 0
  rwa [h00] at this

theorem round4F_mono (h0 : 0 ≤ u) (h1 : u < 1) (hF : FloatRounding u rnd) {a b : ℚ} (ha : 0 ≤ a) (hab : a ≤ b) : round4F rnd a ≤ round4F rnd b := by
  unfold round4F
  have hm : rnd (a * 10000) ≤ rnd (b * 10000) := hF.mono _ _ (by positivity) (by linarith)
  have ha' := rnd_nonneg h0 h1 hF (show 0 ≤ a * 10000 by positivity)
  have hr := rint_mono hm
  have hr0 := rint_nonneg ha'
  apply hF.mono
  · exact div_nonneg (by exact_mod_cast hr0) (by norm_num)
  · apply div_le_div_of_nonneg_right _ (by norm_num)
    exact_mod_cast hr

theorem round4F_zero (hF : FloatRounding u rnd) : round4F rnd 0 = 0 := by
  unfold round4F
  rw [zero_mul, accurate_zero hF.accurate, show rint (0 : ℚ) = 0 by simpa using rint_int 0]
  simp [accurate_zero hF.accurate]

/-- What holds of the times in every state the loop goes through. -/
structure TimeStateF (rnd : ℚ → ℚ) (tEnd : ℚ) (s : SampleState) : Prop where
  nonneg : 0 ≤ s.t
  float : rnd s.t = s.t
  last : (s.rows.map Prod.fst).getLast? = some (round4F rnd s.t)
  sorted : (s.rows.map Prod.fst).Pairwise (· ≤ ·)
  pending : ∀ (i : Nat) (x : ℚ), s.timers[i]? = some (some x) → s.t ≤ x ∧ rnd x = x
  bound : tEnd ≠ -1 → 0 ≤ tEnd → s.t ≤ tEnd

theorem timesF_step (h0 : 0 ≤ u) (h1 : u < 1) (hF : FloatRounding u rnd) (hN : FloatNet u rnd N) (hD : Describes net N) (hOK : N.OK)
    (hexp : ∀ n i, 0 ≤ draws.exp n i) {s s' : SampleState} (h : GoodStateF N s)
    (ht : TimeStateF rnd tEnd s) (hs : net.stepF rnd tEnd maxTr draws s = .ok (.next s')) : TimeStateF rnd tEnd s' := by
  obtain ⟨cur, c1, c2, c3⟩ := h.last
  obtain ⟨times, k, t, v, e1, e2, e3, e4, e5, e6⟩ := stepF_spec (tEnd := tEnd) (maxTr := maxTr) (draws := draws) h0 h1 hF hN hD hOK c1 c3 h.timers
  obtain ⟨times', f1, f2, f3⟩ := fillTimersF_spec (rnd := rnd) hD hOK c3 s.t (draws.exp s.nTr) h.timers
  rw [e1] at f1
  cases f1
  have hge : ∀ (i : Nat) (x : ℚ), times[i]? = some x → s.t ≤ x ∧ rnd x = x := by
    intro i x hx
    have hi : i < N.vars.length := by rw [← e2]; exact (List.getElem?_eq_some_iff.1 hx).1
    have hvi := List.getElem?_eq_getElem hi
    have hti := List.getElem?_eq_getElem (l := s.timers) (i := i) (by rw [h.timers]; exact hi)
    have := f3 i _ _ hvi hti
    rw [hx] at this
    have := Option.some.inj this
    subst this
    cases ho : s.timers[i]'(by rw [h.timers]; exact hi) with
    | some z =>
      rw [ho] at hti
      exact ht.pending i z hti
    | none =>
      simp only [Option.getD_none]
      refine ⟨?_, hF.idem _⟩
      have h2 := rnd_nonneg h0 h1 hF (mul_nonneg (exitRate_nonneg hD hOK c3 (List.getElem_mem hi)) (hexp s.nTr i))
      have := hF.mono s.t _ ht.nonneg (show s.t ≤ s.t + rnd (N.exitRate cur.2 N.vars[i] * draws.exp s.nTr i) by linarith)
      rwa [ht.float] at this
  rcases e6 with ⟨-, e⟩ | ⟨hst, y, y1, y2, e⟩
  · rw [hs] at e; cases e
  · rw [hs] at e
    simp only [Except.ok.injEq, SampleStep.next.injEq] at e
    subst e
    obtain ⟨htt, htr⟩ := hge k t e4
    refine ⟨ht.nonneg.trans htt, htr, by simp, ?_, ?_, ?_⟩
    · dsimp only
      rw [List.map_append, List.pairwise_append]
      refine ⟨ht.sorted, by simp, ?_⟩
      intro a ha b hb
      simp only [List.map_cons, List.map_nil, List.mem_singleton] at hb
      subst hb
      refine le_trans ?_ (round4F_mono h0 h1 hF ht.nonneg htt)
      have hl := ht.last
      obtain ⟨l, hl'⟩ := List.getLast?_eq_some_iff.1 hl
      have hs := ht.sorted
      rw [hl'] at hs ha
      rcases List.mem_append.1 ha with ha | ha
      · exact (List.pairwise_append.1 hs).2.2 a ha _ (by simp)
      · rw [List.mem_singleton] at ha; exact le_of_eq ha
    · intro i x hx
      dsimp only at hx ⊢
      have hi : i < N.vars.length := by
        rw [← (undefine_spec (k := k) (v := v) hD hOK e2).1]; exact (List.getElem?_eq_some_iff.1 hx).1
      have hxt := List.getElem?_eq_getElem (l := times) (i := i) (by rw [e2]; exact hi)
      rw [(undefine_spec (k := k) (v := v) hD hOK e2).2 i _ _ (List.getElem?_eq_getElem hi) hxt] at hx
      have hx := Option.some.inj hx
      split at hx
      · cases hx
      · cases Option.some.inj hx
        exact ⟨e5 _ (List.getElem_mem _), (hge i _ hxt).2⟩
    · intro h1 h2
      unfold SampleNet.stops at hst
      simp only [Bool.or_eq_false_iff, Bool.and_eq_false_iff, decide_eq_false_iff_not, not_le] at hst
      rcases hst.2 with h | h
      · exact absurd h1 h
      · exact h.le

theorem timesF_of_visits (h0 : 0 ≤ u) (h1 : u < 1) (hF : FloatRounding u rnd) (hN : FloatNet u rnd N) (hD : Describes net N) (hOK : N.OK)
    (hexp : ∀ n i, 0 ≤ draws.exp n i) {s : SampleState} (h : VisitsF rnd net tEnd maxTr draws s) : TimeStateF rnd tEnd s := by
  induction h with
  | init =>
    refine ⟨le_refl _, accurate_zero hF.accurate, by simp [SampleNet.initState, round4F_zero hF], by simp [SampleNet.initState], ?_, fun _ h => h⟩
    intro i x hx
    simp only [SampleNet.initState, List.getElem?_map] at hx
    cases hv : net.vnames[i]? with
    | none => rw [hv] at hx; simp at hx
    | some v => rw [hv] at hx; simp at hx
  | step hv hs ih => exact timesF_step h0 h1 hF hN hD hOK hexp (goodF_of_visits h0 h1 hF hN hD hOK hv) ih hs

/-! ## Termination -/

theorem stepF_returns (h0 : 0 ≤ u) (h1 : u < 1) (hF : FloatRounding u rnd) (hN : FloatNet u rnd N) (hD : Describes net N) (hOK : N.OK)
    (tEnd : ℚ) (maxTr : ℤ) (draws : SampleDrawsF) {s : SampleState} (h : GoodStateF N s) :
    (∃ t, SampleNet.stops tEnd maxTr t s.nTr = true ∧ net.stepF rnd tEnd maxTr draws s = .ok (.done (SampleNet.terminate s.rows))) ∨
    ∃ s' t, SampleNet.stops tEnd maxTr t s.nTr = false ∧ net.stepF rnd tEnd maxTr draws s = .ok (.next s') ∧ s'.nTr = s.nTr + 1 := by
  obtain ⟨cur, c1, c2, c3⟩ := h.last
  obtain ⟨times, k, t, v, e1, e2, e3, e4, e5, e6⟩ := stepF_spec (tEnd := tEnd) (maxTr := maxTr) (draws := draws) h0 h1 hF hN hD hOK c1 c3 h.timers
  rcases e6 with ⟨hst, e⟩ | ⟨hst, y, y1, y2, e⟩
  · exact .inl ⟨t, hst, e⟩
  · exact .inr ⟨_, t, hst, e, rfl⟩

theorem runF_returns (h0 : 0 ≤ u) (h1 : u < 1) (hF : FloatRounding u rnd) (hN : FloatNet u rnd N) (hD : Describes net N) (hOK : N.OK)
    (tEnd : ℚ) (m : Nat) (draws : SampleDrawsF) :
    ∀ (fuel : Nat) (s : SampleState), GoodStateF N s → s.nTr ≤ m → m < fuel + s.nTr →
      ∃ rows, net.runF rnd tEnd m draws fuel s = .ok rows ∧ rows.length ≤ m + 1 ∧ (tEnd = -1 → rows.length = m + 1) := by
  intro fuel
  induction fuel with
  | zero => intro s _ h1 h2; omega
  | succ fuel ih =>
    intro s hg g1 g2
    rw [SampleNet.runF]
    rcases stepF_returns h0 h1 hF hN hD hOK tEnd m draws hg with ⟨t, hst, e⟩ | ⟨s', t, hst, e, hn⟩
    · rw [e]
      refine ⟨_, rfl, by rw [terminate_length, hg.len]; omega, ?_⟩
      intro hte
      rw [terminate_length, hg.len]
      unfold SampleNet.stops at hst
      simp only [hte, ne_eq, not_true_eq_false, decide_false, Bool.false_and, Bool.or_false, Bool.and_eq_true, decide_eq_true_eq] at hst
      omega
    · rw [e]
      simp only [Except.bind_ok']
      refine ih s' (goodF_step h0 h1 hF hN hD hOK hg e) ?_ (by omega)
      unfold SampleNet.stops at hst
      simp only [Bool.or_eq_false_iff, Bool.and_eq_false_iff, decide_eq_false_iff_not] at hst
      rcases hst.1 with h | h
      · exact absurd (show ((m : ℤ) ≠ -1) by omega) h
      · omega

end

end PyCTBN
