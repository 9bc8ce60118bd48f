import Verif.Lemmas.FloatTest
import Verif.Props.Indep
import Verif.Props.FloatExact
import Verif.Props.CtpcReturns

/-!
# C164, C165: rounding decides only borderline tests
-/

namespace PyCTBN
open Spec Indep

theorem forall₂_matrixOf {R : ℚ → ℚ → Prop} {c : Nat} {q : Nat → Nat → ℚ} {M : List (List ℚ)} (h : List.Forall₂ (List.Forall₂ R) M (matrixOf c q)) :
    ∃ q' : Nat → Nat → ℚ, M = matrixOf c q' ∧ ∀ x y, x < c → y < c → R (q' x y) (q x y) := by
  have row : ∀ x, x < c → ∃ r, M[x]? = some r ∧ List.Forall₂ R r ((List.range c).map (q x)) := by
    intro x hx
    exact forall₂_getElem? h x (by simp [matrixOf, hx])
  have ent : ∀ x y, x < c → y < c → ∃ a, (M[x]?.getD [])[y]? = some a ∧ R a (q x y) := by
    intro x y hx hy
    obtain ⟨r, hr, hf⟩ := row x hx
    obtain ⟨a, ha, hR⟩ := forall₂_getElem? hf y (b := q x y) (by simp [hy])
    exact ⟨a, by rw [hr]; exact ha, hR⟩
  have hlen : M.length = c := by have := h.length_eq; simpa [matrixOf] using this
  refine ⟨fun x y => ((M[x]?.getD [])[y]?).getD 0, ?_, ?_⟩
  · apply List.ext_getElem?
    intro x
    by_cases hx : x < c
    · obtain ⟨r, hr, hf⟩ := row x hx
      have hrl : r.length = c := by have := hf.length_eq; simpa using this
      rw [hr]
      simp only [matrixOf, List.getElem?_map, List.getElem?_range hx, Option.map_some, hr, Option.getD_some, Option.some.injEq]
      apply List.ext_getElem?
      intro y
      by_cases hy : y < c
      · rw [List.getElem?_map, List.getElem?_range hy, Option.map_some, List.getElem?_eq_getElem (l := r) (by omega)]; rfl
      · rw [List.getElem?_eq_none (by omega), List.getElem?_eq_none (by simp; omega)]
    · rw [List.getElem?_eq_none (by omega), List.getElem?_eq_none (by simp [matrixOf]; omega)]
  · intro x y hx hy
    obtain ⟨a, ha, hR⟩ := ent x y hx hy
    show R (((M[x]?.getD [])[y]?).getD 0) _
    rw [ha]; exact hR

theorem near_cast {u : ℚ} {m : Nat} {x y : ℚ} (h : Near u m x y) : Near (u : ℝ) m (x : ℝ) (y : ℝ) := by
  obtain ⟨θ, a, b, rfl⟩ := h
  refine ⟨(θ : ℝ), ?_, ?_, by push_cast; ring⟩
  · have : (((1 - u) ^ m : ℚ) : ℝ) ≤ (θ : ℝ) := by exact_mod_cast a
    push_cast at this; exact this
  · have : (θ : ℝ) ≤ ((((1 - u) ^ m)⁻¹ : ℚ) : ℝ) := by exact_mod_cast b
    push_cast at this; exact this

/-- The ratio of the F test: same infinity or NaN, or off by `2m + 1` errors. -/
theorem ratio_near {u : ℝ} (h0 : 0 ≤ u) (h1 : u < 1) {f : ℝ → ℝ} (hf : Accurate u f) {m : Nat} {a b a' b' : ℝ} (na : Near u m a' a) (nb : Near u m b' b) :
    (b = 0 ∧ (XR.div a' b').rnd f = XR.div a b) ∨
    (b ≠ 0 ∧ ∃ g, (XR.div a' b').rnd f = .fin g ∧ |g - a / b| ≤ gam u (2 * m + 1) * |a / b|) := by
  by_cases hb : b = 0
  · left
    refine ⟨hb, ?_⟩
    have hb' := (near_sign h0 h1 nb).1.2 hb
    obtain ⟨z1, z2, z3⟩ := near_sign h0 h1 na
    unfold XR.div
    rw [if_pos hb, if_pos hb']
    unfold XR.infOf
    simp only [z2, z3]
    split
    · rfl
    · split <;> rfl
  · right
    refine ⟨hb, ?_⟩
    have hb' : b' ≠ 0 := fun h => hb ((near_sign h0 h1 nb).1.1 h)
    refine ⟨f (a' / b'), by unfold XR.div; rw [if_neg hb']; rfl, ?_⟩
    have := near_trans h0 h1 (near_rnd h0 h1 hf (a' / b')) (near_div h0 h1 na nb)
    rw [show 1 + (m + m) = 2 * m + 1 by omega] at this
    exact near_abs h0 h1 this

section
variable {u : ℚ} (h0 : 0 ≤ u) (h1 : u < 1) {f : ℝ → ℝ} (hf : Accurate (u : ℝ) f) (P : IndepParams) {c m : Nat}
  {t1 t2 : Nat → ℚ} {m1 m2 : Nat → Nat → Nat} {q1 q2 : Nat → Nat → ℚ} {k1 k2 : Cim}
include h0 h1 hf

theorem scarceF_iff (thumb : Nat) (hb : ¬ ScarceBorder P u c m1 thumb) :
    (2 < c ∧ ((XR.div ((∑ x ∈ Finset.range c, m1 x x : ℕ) : ℝ) (thumb : ℝ)).rnd f).lt (.fin P.thumbThreshold)) ↔ Scarce P c m1 thumb := by
  have h0' : (0 : ℝ) ≤ (u : ℝ) := by exact_mod_cast h0
  have h1' : (u : ℝ) < 1 := by exact_mod_cast h1
  unfold Scarce
  by_cases hc : 2 < c
  · simp only [hc, true_and]
    by_cases ht : thumb = 0
    · subst ht
      have : XR.rnd f (XR.div ((∑ x ∈ Finset.range c, m1 x x : ℕ) : ℝ) ((0 : ℕ) : ℝ)) = XR.div ((∑ x ∈ Finset.range c, m1 x x : ℕ) : ℝ) ((0 : ℕ) : ℝ) := by
        unfold XR.div XR.infOf
        rw [if_pos (by simp)]
        split
        · rfl
        · split <;> rfl
      rw [this]
    · have ht' : (thumb : ℝ) ≠ 0 := by exact_mod_cast ht
      have e : XR.div ((∑ x ∈ Finset.range c, m1 x x : ℕ) : ℝ) (thumb : ℝ) = .fin (((∑ x ∈ Finset.range c, m1 x x : ℕ) : ℝ) / thumb) := by
        unfold XR.div; rw [if_neg ht']
      rw [e]
      have hn := near_abs h0' h1' (near_rnd h0' h1' hf (((∑ x ∈ Finset.range c, m1 x x : ℕ) : ℝ) / thumb))
      rw [abs_of_nonneg (a := ((∑ x ∈ Finset.range c, m1 x x : ℕ) : ℝ) / thumb) (by positivity)] at hn
      refine (lt_of_band hn ?_).1
      intro q hq
      cases hq
      by_contra hle
      exact hb ⟨hc, ht, not_lt.1 hle⟩
  · simp [hc]

/-- **C164** (each state).  In floating point the F test of a state decides as in exact arithmetic unless a quantile is within `2m + 1` relative errors of the ratio. -/
theorem fOutside_float {q1' q2' : Nat → Nat → ℚ} (x : Nat) (n1 : Near u m (q1' x x) (q1 x x)) (n2 : Near u m (q2' x x) (q2 x x))
    (hb : ¬ FBorder P u (2 * m + 1) m1 m2 q1 q2 x) :
    (((XR.div (q2' x x : ℝ) (q1' x x : ℝ)).rnd f).lt (P.fPpf (P.expTestSign / 2) (m1 x x) (m2 x x)) ∨
      (P.fPpf (1 - P.expTestSign / 2) (m1 x x) (m2 x x)).lt ((XR.div (q2' x x : ℝ) (q1' x x : ℝ)).rnd f)) ↔ FOutside P m1 m2 q1 q2 x := by
  have h0' : (0 : ℝ) ≤ (u : ℝ) := by exact_mod_cast h0
  have h1' : (u : ℝ) < 1 := by exact_mod_cast h1
  unfold FOutside
  rcases ratio_near h0' h1' hf (near_cast n2) (near_cast n1) with ⟨_, h⟩ | ⟨hq, g, hg, hband⟩
  · rw [h]
  · have e : XR.div (q2 x x : ℝ) (q1 x x : ℝ) = .fin ((q2 x x : ℝ) / (q1 x x : ℝ)) := by unfold XR.div; rw [if_neg hq]
    rw [hg, e]
    have hq' : q1 x x ≠ 0 := by exact_mod_cast hq
    have b1 := (lt_of_band hband (Q := P.fPpf (P.expTestSign / 2) (m1 x x) (m2 x x)) (by
      intro q hQ; by_contra hle; exact hb ⟨hq', q, .inl hQ, not_lt.1 hle⟩)).1
    have b2 := (lt_of_band hband (Q := P.fPpf (1 - P.expTestSign / 2) (m1 x x) (m2 x x)) (by
      intro q hQ; by_contra hle; exact hb ⟨hq', q, .inr hQ, not_lt.1 hle⟩)).2
    rw [b1, b2]

/-- **C164** (each state).  Likewise the chi-square test, unless the quantile is within the rounding error of the statistic. -/
theorem chiExceeds_float (e1 : ExitCounts c m1) (e2 : ExitCounts c m2) {x : Nat} (hx : x < c) (hb : ¬ ChiBorder P u c m1 m2 x) :
    (P.chi2Ppf (1 - P.chiTestAlfa) ((c : ℝ) - 1)).lt (chiF f (m1 x x) (m2 x x) (((List.range c).filter (fun y => decide (y ≠ x))).map (m1 x))
      (((List.range c).filter (fun y => decide (y ≠ x))).map (m2 x))) ↔ ChiExceeds P c m1 m2 x := by
  have h0' : (0 : ℝ) ≤ (u : ℝ) := by exact_mod_cast h0
  have h1' : (u : ℝ) < 1 := by exact_mod_cast h1
  obtain ⟨j1, j2⟩ := chiF_closed h0' h1' hf hx e1 e2
  unfold ChiExceeds
  by_cases hd : ChiDefined c m1 m2 x
  · obtain ⟨s, hs, hband⟩ := j1 hd
    rw [hs]
    simp only [hd, true_and]
    refine (lt_of_band hband ?_).2
    intro q hQ; by_contra hle; exact hb ⟨hd, q, hQ, not_lt.1 hle⟩
  · rw [j2 hd]
    simp only [hd, false_and, XR.not_lt_nan]

/-- **C164.**  The test of two CIMs that were computed with at most `m` relative errors, itself carried out in floating point, gives the verdict of exact arithmetic
on the exact CIMs, unless one of its comparisons is borderline. -/
theorem float_test_agrees (e1 : ExitCounts c m1) (e2 : ExitCounts c m2) (n1 : CimNear u m k1 (cimOf c t1 m1 q1)) (n2 : CimNear u m k2 (cimOf c t2 m2 q2))
    (thumb : Nat) (hS : ¬ ScarceBorder P u c m1 thumb) (hF : ∀ x, x < c → ¬ FBorder P u (2 * (m + 2) + 1) m1 m2 q1 q2 x)
    (hC : ∀ x, x < c → ¬ ChiBorder P u c m1 m2 x) :
    independenceTestF f P c k1 k2 thumb = independenceTest P c (cimOf c t1 m1 q1) (cimOf c t2 m2 q2) thumb := by
  classical
  obtain ⟨q1', hq1, r1⟩ := forall₂_matrixOf n1.coeffs
  obtain ⟨q2', hq2, r2⟩ := forall₂_matrixOf n2.coeffs
  have hs0 : ((List.range c).map (fun x => m1 x x)).sum = ∑ x ∈ Finset.range c, m1 x x := by
    rw [← List.sum_toFinset _ List.nodup_range]; congr 1; ext; simp
  have hs : tooScarceF f P c (matrixOf c m1) thumb = decide (Scarce P c m1 thumb) := by
    unfold tooScarceF
    rw [diagonal_matrixOf, hs0]
    exact decide_eq_decide.2 (scarceF_iff h0 h1 hf P thumb hS)
  have hs' : tooScarce P c (matrixOf c m1) thumb = decide (Scarce P c m1 thumb) := by
    unfold tooScarce Scarce
    rw [diagonal_matrixOf, hs0]
    exact decide_eq_decide.2 Iff.rfl
  have hff : ∀ x ∈ List.range c, fRejectsF f P (matrixOf c q1') (matrixOf c q2') (diagonal (matrixOf c m1)) (diagonal (matrixOf c m2)) x
      = .ok (decide (FOutside P m1 m2 q1 q2 x)) := by
    intro x hx
    have hx := List.mem_range.1 hx
    unfold fRejectsF
    simp only [diagonal_matrixOf, pyGet_range_map hx, Except.bind_ok']
    exact congrArg Except.ok (decide_eq_decide.2 (fOutside_float h0 h1 hf P x (r1 x x hx hx) (r2 x x hx hx) (hF x hx)))
  have hff' : ∀ x ∈ List.range c, fRejects P (matrixOf c q1) (matrixOf c q2) (diagonal (matrixOf c m1)) (diagonal (matrixOf c m2)) x
      = .ok (decide (FOutside P m1 m2 q1 q2 x)) := by
    intro x hx
    have hx := List.mem_range.1 hx
    unfold fRejects
    simp only [diagonal_matrixOf, pyGet_range_map hx, Except.bind_ok']
    exact congrArg Except.ok (decide_eq_decide.2 Iff.rfl)
  have hc : ∀ x ∈ List.range c, chiRejectsF f P c (matrixOf c m1) (matrixOf c m2) (diagonal (matrixOf c m1)) (diagonal (matrixOf c m2)) x
      = .ok (decide (ChiExceeds P c m1 m2 x)) := by
    intro x hx
    have hx := List.mem_range.1 hx
    unfold chiRejectsF
    simp only [diagonal_matrixOf, noDiag_matrixOf, pyGet_range_map hx, Except.bind_ok']
    exact congrArg Except.ok (decide_eq_decide.2 (chiExceeds_float h0 h1 hf P e1 e2 hx (hC x hx)))
  have hc' : ∀ x ∈ List.range c, chiRejects P c (matrixOf c m1) (matrixOf c m2) (diagonal (matrixOf c m1)) (diagonal (matrixOf c m2)) x
      = .ok (decide (ChiExceeds P c m1 m2 x)) := by
    intro x hx
    have hx := List.mem_range.1 hx
    unfold chiRejects
    simp only [diagonal_matrixOf, noDiag_matrixOf, pyGet_range_map hx, Except.bind_ok']
    obtain ⟨j1, j2⟩ := chi_closed hx e1 e2
    unfold ChiExceeds
    by_cases hd : ChiDefined c m1 m2 x
    · rw [j1 hd]; simp only [hd, true_and]; rfl
    · rw [j2 hd]; simp only [hd, false_and, XR.not_lt_nan]; rfl
  unfold independenceTestF independenceTest
  have z1 : k1.trans = matrixOf c m1 := n1.counts
  have z2 : k2.trans = matrixOf c m2 := n2.counts
  rw [z1, z2, hq1, hq2]
  simp only [cimOf, hs, hs']
  rw [anyRound_ok _ hff, anyRound_ok _ hff', anyRound_ok _ hc, anyRound_ok _ hc']

/-- **C165** (data-size rule).  With a whole-number threshold (the default is 25) that is not changed by rounding, the data-size rule is never decided by rounding, as long
as `(threshold + 1) · thumb_value` is below the precision. -/
theorem scarce_never_borderline (n thumb : Nat) (hn : P.thumbThreshold = n) (hfn : f (n : ℝ) = n) (hthumb : 0 < thumb)
    (hsmall : gam u 1 * ((n + 1) * thumb) < 1) :
    tooScarceF f P c (matrixOf c m1) thumb = tooScarce P c (matrixOf c m1) thumb := by
  classical
  have h0' : (0 : ℝ) ≤ (u : ℝ) := by exact_mod_cast h0
  have h1' : (u : ℝ) < 1 := by exact_mod_cast h1
  have g0 := gam_nonneg h0' h1' 1
  have hT : (0 : ℝ) < thumb := by exact_mod_cast hthumb
  have hs0 : ((List.range c).map (fun x => m1 x x)).sum = ∑ x ∈ Finset.range c, m1 x x := by
    rw [← List.sum_toFinset _ List.nodup_range]; congr 1; ext; simp
  unfold tooScarceF tooScarce
  rw [diagonal_matrixOf, hs0]
  set S := ∑ x ∈ Finset.range c, m1 x x
  apply decide_eq_decide.2
  by_cases heq : S = n * thumb
  · have e : XR.div ((S : ℕ) : ℝ) (thumb : ℝ) = .fin (n : ℝ) := by
      unfold XR.div; rw [if_neg hT.ne', heq]; push_cast; rw [mul_div_assoc, div_self hT.ne', mul_one]
    rw [e]
    show (2 < c ∧ (XR.fin (f (n : ℝ))).lt _) ↔ _
    rw [hfn]
  · refine scarceF_iff h0 h1 hf P thumb ?_
    rintro ⟨-, -, hle⟩
    change |P.thumbThreshold - (S : ℝ) / thumb| ≤ gam u 1 * ((S : ℝ) / thumb) at hle
    rw [hn] at hle
    have hcast : (S : ℝ) / thumb * thumb = S := by field_simp
    have hle2 : |(n : ℝ) * thumb - S| ≤ gam u 1 * S := by
      have := mul_le_mul_of_nonneg_right hle hT.le
      rw [mul_assoc, hcast, ← abs_of_pos hT, ← abs_mul, abs_of_pos hT, sub_mul, hcast] at this
      exact this
    rcases Nat.lt_or_gt_of_ne heq with hlt | hgt
    · have a1 : (S : ℝ) + 1 ≤ n * thumb := by exact_mod_cast hlt
      have := (abs_le.1 hle2).2
      have : gam u 1 * S ≤ gam u 1 * ((n + 1) * thumb) := mul_le_mul_of_nonneg_left (by nlinarith) g0
      linarith [(abs_le.1 hle2).2]
    · have a1 : (n : ℝ) * thumb + 1 ≤ S := by exact_mod_cast hgt
      have a2 := (abs_le.1 hle2).1
      have hT1 : (1 : ℝ) ≤ thumb := by exact_mod_cast hthumb
      -- `S (1 - γ) ≤ n T`, but `S ≥ n T + 1`
      by_cases hbig : (S : ℝ) ≤ (n + 1) * thumb
      · have : gam u 1 * S ≤ gam u 1 * ((n + 1) * thumb) := mul_le_mul_of_nonneg_left hbig g0
        linarith
      · push Not at hbig
        have hg1 : gam u 1 < 1 := by
          have : (1 : ℝ) ≤ (n + 1) * thumb := by nlinarith [(Nat.cast_nonneg n : (0 : ℝ) ≤ n)]
          nlinarith
        have : (S : ℝ) * (1 - gam u 1) ≤ n * thumb := by linarith
        have h3 : ((n + 1) * thumb : ℝ) * (1 - gam u 1) ≤ S * (1 - gam u 1) := mul_le_mul_of_nonneg_right hbig.le (by linarith)
        have h4 : ((n + 1) * thumb : ℝ) * (1 - gam u 1) = n * thumb + thumb - gam u 1 * ((n + 1) * thumb) := by ring
        linarith

/-- **C165** (binary child).  For a child with two states the chi-square part never rejects in floating point either, if the quantile exceeds the rounding error of
the counts.  (In floating point the statistic need not be exactly zero.) -/
theorem chi_void_for_binary_float (e1 : ExitCounts 2 m1) (e2 : ExitCounts 2 m2) {q : ℝ} (hq : P.chi2Ppf (1 - P.chiTestAlfa) (((2 : ℕ) : ℝ) - 1) = .fin q)
    {x : Nat} (hx : x < 2) (hsmall : gam u 11 * ((m1 x x : ℝ) + m2 x x) < q) :
    ¬ (P.chi2Ppf (1 - P.chiTestAlfa) (((2 : ℕ) : ℝ) - 1)).lt (chiF f (m1 x x) (m2 x x) (((List.range 2).filter (fun y => decide (y ≠ x))).map (m1 x))
      (((List.range 2).filter (fun y => decide (y ≠ x))).map (m2 x))) := by
  have h0' : (0 : ℝ) ≤ (u : ℝ) := by exact_mod_cast h0
  have h1' : (u : ℝ) < 1 := by exact_mod_cast h1
  have g0 := gam_nonneg h0' h1' 11
  have hq0 : 0 ≤ q := by
    have : (0 : ℝ) ≤ gam u 11 * ((m1 x x : ℝ) + m2 x x) := by positivity
    linarith
  have hz : chiSquare 2 m1 m2 x = 0 ∧ (ChiDefined 2 m1 m2 x → chiScale 2 m1 m2 x ≤ (m1 x x : ℝ) + m2 x x) := by
    obtain ⟨a1, a2⟩ := exitCounts_two e1
    obtain ⟨b1, b2⟩ := exitCounts_two e2
    have main : ∀ y, y ≠ x → y < 2 → (Finset.range 2).erase x = {y} → m1 x y = m1 x x → m2 x y = m2 x x →
        chiSquare 2 m1 m2 x = 0 ∧ (ChiDefined 2 m1 m2 x → chiScale 2 m1 m2 x ≤ (m1 x x : ℝ) + m2 x x) := by
      intro y hyx hy he w1 w2
      unfold chiSquare chiScale
      rw [he]
      simp only [Finset.sum_singleton, w1, w2]
      refine ⟨by rw [mul_comm (m2 x x : ℝ)]; simp, fun hd => ?_⟩
      obtain ⟨p1, p2, p3⟩ := hd y hy hyx
      have p1' : (0 : ℝ) < m1 x x := by exact_mod_cast p1
      have p2' : (0 : ℝ) < m2 x x := by exact_mod_cast p2
      rw [div_le_iff₀ (by positivity)]
      nlinarith [mul_nonneg (mul_nonneg p1'.le p2'.le) (sq_nonneg ((m1 x x : ℝ) - m2 x x))]
    interval_cases x
    · exact main 1 (by omega) (by omega) (by decide) a1.symm b1.symm
    · exact main 0 (by omega) (by omega) (by decide) a2.symm b2.symm
  rw [chiExceeds_float h0 h1 hf P e1 e2 hx]
  · apply chi_test_void_for_binary_child P le_rfl e1 e2 _ hx
    rw [hq]; exact not_lt.2 hq0
  · rintro ⟨hd, q', hq', hle⟩
    rw [hq] at hq'
    cases hq'
    rw [hz.1, sub_zero, abs_of_nonneg hq0] at hle
    have := mul_le_mul_of_nonneg_left (hz.2 hd) g0
    linarith

end

/-! ## From the data to the verdict -/

theorem estimated_shape {s : Structure} {g : NetworkGraph} (hg : Reach s g) (hpos : PosCards s) {n : Label} (hn : n ∈ s.labels) {c : Nat}
    (hcn : s.getStatesNumber n = .ok c) {t : Trajectory} {sofc : SetOfCims} (h : ParamsEst.estimate t g n = .ok sofc) :
    ∀ cim ∈ sofc.cims, ∃ r m q, cim = cimOf c r m q ∧ ExitCounts c m := by
  have hc0 : sofc.nodeStates = c := by
    obtain ⟨c', i, ps, is, e1, _, _, _, e5⟩ := estimate_unfold hg hn
    rw [hcn] at e1; cases e1
    rw [e5 t] at h
    cases h1 : computeStateResTime t.times t.trajectory (i :: is) (buildTimeScalarIndexing c ps) ps.prod c with
    | error e => rw [h1] at h; cases h
    | ok T =>
      rw [h1] at h
      simp only [Except.bind_ok'] at h
      cases h2 : computeStateTransitions i t.rows ((i + s.total) :: i :: is) (buildTransitionScalarIndexing c ps) ps.prod c with
      | error e => rw [h2] at h; cases h
      | ok M => rw [h2] at h; cases h; rfl
  obtain ⟨c', i, ps, cols, tcols, st, st', hc, hk, hall⟩ := estimate_returns_iff hg hn hpos
  obtain ⟨_, rfl⟩ := (hall t sofc).1 h
  replace hc0 : c' = c := hc0
  subst hc0
  intro cim hcim
  obtain ⟨k, _, rfl⟩ := List.mem_map.1 hcim
  set r : Nat → ℚ := fun x => timeEntry t.origCols cols st (t.times.zip t.rows) (k * c' + x)
  set m : Nat → Nat → Nat := fun x x' => if x = x' then ((List.range c').map (fun y => if x = y then 0 else transEntry i tcols st' t.rows ((k * c' + x) * c' + y))).sum
    else transEntry i tcols st' t.rows ((k * c' + x) * c' + x') with hm
  refine ⟨r, m, fun i j => ((if i = j then -((m i j : Nat) : ℚ) else ((m i j : Nat) : ℚ)) + 1) / (r i + 1), ?_, ?_⟩
  · unfold Cim.build cimOf
    congr 1
    unfold cimCoefficients matrixOf
    rw [zipIdx_range_map, List.map_map]
    apply List.map_congr_left
    intro i hi
    simp only [Function.comp]
    have hi' := List.mem_range.1 hi
    rw [zipIdx_range_map, List.map_map]
    apply List.map_congr_left
    intro j hj
    simp only [Function.comp]
    rw [List.getElem?_map, List.getElem?_range hi']
    rfl
  · intro x hx
    simp only [hm, if_true]
    rw [list_sum_ite_erase c' x hx]
    apply Finset.sum_congr rfl
    intro y hy
    rw [if_neg (Finset.ne_of_mem_erase hy).symm]

/-- **C164** (from the data).  Estimate, in floating point from durations off by `k` relative errors, the CIMs of a child in two graphs, and test any two of them in floating
point: if exact estimation returns, floating-point estimation returns as many CIMs, and the verdict is the one of exact arithmetic throughout, unless a comparison of the
exact test is borderline (within `2 (k + rows + 2) + 1` relative errors for the F test). -/
theorem float_verdict_from_data (s : Structure) (g g' : NetworkGraph) (hg : Reach s g) (hg' : Reach s g') (hpos : PosCards s) (n : Label)
    (hn : n ∈ s.labels) (c : Nat) (hcn : s.getStatesNumber n = .ok c) (ps ps' : List Nat)
    (hps : ps.map Except.ok = (parentsOf g n).map s.getStatesNumber) (hps' : ps'.map Except.ok = (parentsOf g' n).map s.getStatesNumber)
    (t : Trajectory) (ht : DataOK s t) (htime : ∀ d ∈ t.times, 0 ≤ d)
    (rnd : ℚ → ℚ) (f : ℝ → ℝ) (u : ℚ) (h0 : 0 ≤ u) (h1 : u < 1) (ha : Accurate u rnd) (hf : Accurate (u : ℝ) f) (N : Nat) (hex : ExactInts N rnd)
    (hN : c * c * (c + topParentSlot ps) ≤ N) (hN' : c * c * (c + topParentSlot ps') ≤ N) (hrows : t.rows.length < N) (k : Nat) (times' : List ℚ)
    (hk : List.Forall₂ (Near u k) times' t.times) (a a' : SetOfCims)
    (hest : ParamsEst.estimate t g n = .ok a) (hest' : ParamsEst.estimate t g' n = .ok a') :
    ∃ b b', ParamsEst.estimateF rnd { t with times := times' } g n = .ok b ∧ ParamsEst.estimateF rnd { t with times := times' } g' n = .ok b' ∧
      b.cims.length = a.cims.length ∧ b'.cims.length = a'.cims.length ∧
      ∀ (i j : Nat) (k1 k2 k1' k2' : Cim), a.cims[i]? = some k1 → a'.cims[j]? = some k2 → b.cims[i]? = some k1' → b'.cims[j]? = some k2' →
        ∃ t1 m1 q1 t2 m2 q2, k1 = cimOf c t1 m1 q1 ∧ k2 = cimOf c t2 m2 q2 ∧
          ∀ (P : IndepParams) (thumb : Nat), ¬ ScarceBorder P u c m1 thumb →
            (∀ x, x < c → ¬ FBorder P u (2 * (k + t.rows.length + 2) + 1) m1 m2 q1 q2 x) → (∀ x, x < c → ¬ ChiBorder P u c m1 m2 x) →
            independenceTestF f P c k1' k2' thumb = independenceTest P c k1 k2 thumb := by
  rcases float_estimation_near s g hg hpos n hn c hcn ps hps t ht htime rnd u h0 h1 ha N hex hN hrows k times' hk with ⟨e, h, _⟩ | ⟨a0, b, h, hb, _, hnear⟩
  · rw [hest] at h; cases h
  rcases float_estimation_near s g' hg' hpos n hn c hcn ps' hps' t ht htime rnd u h0 h1 ha N hex hN' hrows k times' hk with ⟨e, h', _⟩ | ⟨a0', b', h', hb', _, hnear'⟩
  · rw [hest'] at h'; cases h'
  rw [hest] at h; cases h
  rw [hest'] at h'; cases h'
  refine ⟨b, b', hb, hb', hnear.length_eq, hnear'.length_eq, ?_⟩
  intro i j k1 k2 k1' k2' e1 e2 e1' e2'
  obtain ⟨t1, m1, q1, w1, x1⟩ := estimated_shape hg hpos hn hcn hest k1 (List.mem_of_getElem? e1)
  obtain ⟨t2, m2, q2, w2, x2⟩ := estimated_shape hg' hpos hn hcn hest' k2 (List.mem_of_getElem? e2)
  refine ⟨t1, m1, q1, t2, m2, q2, w1, w2, ?_⟩
  intro P thumb hS hF hC
  obtain ⟨z1, y1, n1⟩ := forall₂_getElem? hnear i e1
  obtain ⟨z2, y2, n2⟩ := forall₂_getElem? hnear' j e2
  rw [e1'] at y1; cases y1
  rw [e2'] at y2; cases y2
  rw [w1] at n1 ⊢
  rw [w2] at n2 ⊢
  exact float_test_agrees h0 h1 hf P x1 x2 n1 n2 thumb hS hF hC

/-! ## Instances -/

/-- Rounding to `p` significant bits on the reals (ties upwards). -/
noncomputable def binRoundR (p : Nat) (x : ℝ) : ℝ := (round (x / (2 : ℝ) ^ (Int.log 2 |x| - p + 1)) : ℤ) * (2 : ℝ) ^ (Int.log 2 |x| - p + 1)

/-- It has relative error `2⁻ᵖ`. -/
theorem binRoundR_accurate (p : Nat) : Accurate (((1 / 2 ^ p : ℚ)) : ℝ) (binRoundR p) := by
  intro x
  by_cases hx : x = 0
  · subst hx; simp [binRoundR]
  · have hx' : 0 < |x| := abs_pos.2 hx
    unfold binRoundR
    set e := Int.log 2 |x| - p + 1
    have he : (0 : ℝ) < 2 ^ e := by positivity
    have h1 : |(round (x / (2 : ℝ) ^ e) : ℝ) - x / 2 ^ e| ≤ 1 / 2 := by rw [abs_sub_comm]; exact abs_sub_round _
    have h2 : ((round (x / (2 : ℝ) ^ e) : ℤ) : ℝ) * 2 ^ e - x = ((round (x / (2 : ℝ) ^ e) : ℝ) - x / 2 ^ e) * 2 ^ e := by field_simp
    rw [h2, abs_mul, abs_of_pos he]
    have h3 : (2 : ℝ) ^ (Int.log 2 |x|) ≤ |x| := by
      have := Int.zpow_log_le_self (b := 2) (R := ℝ) (by norm_num) hx'
      exact_mod_cast this
    have h4 : (2 : ℝ) ^ e = 2 ^ (Int.log 2 |x|) * ((2 : ℝ) ^ p)⁻¹ * 2 := by
      show (2 : ℝ) ^ (Int.log 2 |x| - p + 1) = _
      rw [zpow_add₀ (by norm_num), zpow_sub₀ (by norm_num), zpow_natCast, zpow_one, div_eq_mul_inv]
    calc _ ≤ 1 / 2 * (2 : ℝ) ^ e := mul_le_mul_of_nonneg_right h1 he.le
      _ = 2 ^ (Int.log 2 |x|) * ((2 : ℝ) ^ p)⁻¹ := by rw [h4]; ring
      _ ≤ |x| * ((2 : ℝ) ^ p)⁻¹ := mul_le_mul_of_nonneg_right h3 (by positivity)
      _ = _ := by push_cast; rw [one_div]; ring

/-- Example of a test that is not borderline: quantiles 1/4 and 4 of F, 3 of chi-square; three states, ratio of intensities 1. -/
example :
    let P : IndepParams := ⟨1 / 10, 1 / 10, 25, fun a _ _ => if a < 1 / 2 then .fin (1 / 4) else .fin 4, fun _ _ => .fin 3⟩
    let m : Nat → Nat → Nat := fun x y => if x = y then 200 else 100
    ExitCounts 3 m ∧ ¬ ScarceBorder P ((1 / 2 ^ 53 : ℚ) : ℝ) 3 m 8 ∧ ∀ x, x < 3 → ¬ FBorder P ((1 / 2 ^ 53 : ℚ) : ℝ) 1 m m (fun _ _ => 1) (fun _ _ => 1) x := by
  intro P m
  refine ⟨?_, ?_, ?_⟩
  · intro x hx; interval_cases x <;> decide
  · rintro ⟨-, -, h⟩
    have hs : (∑ x ∈ Finset.range 3, m x x) = 600 := by decide
    rw [hs] at h
    have h' := (abs_le.1 h).1
    have hg : gam ((1 / 2 ^ 53 : ℚ) : ℝ) 1 ≤ 1 / 2 := by
      unfold gam; norm_num
    have hP : P.thumbThreshold = 25 := rfl
    rw [hP] at h'
    push_cast at h' hg
    linarith
  · rintro x hx ⟨-, q, hq, h⟩
    have hg : gam ((1 / 2 ^ 53 : ℚ) : ℝ) 1 ≤ 1 / 2 := by
      unfold gam; norm_num
    have hq' : q = 1 / 4 ∨ q = 4 := by
      rcases hq with hq | hq
      · left
        have : (if (1 / 10 / 2 : ℝ) < 1 / 2 then XR.fin (1 / 4) else .fin 4) = .fin q := hq
        rw [if_pos (by norm_num)] at this
        cases this; rfl
      · right
        have : (if (1 - 1 / 10 / 2 : ℝ) < 1 / 2 then XR.fin (1 / 4) else .fin 4) = .fin q := hq
        rw [if_neg (by norm_num)] at this
        cases this; rfl
    push_cast at h hg
    have e : |q - 1 / 1| ≤ 1 / 2 * |(1 : ℝ) / 1| := h.trans (mul_le_mul_of_nonneg_right hg (abs_nonneg _))
    rw [div_one, abs_one, mul_one] at e
    have := abs_le.1 e
    rcases hq' with rfl | rfl
    · linarith [this.1]
    · linarith [this.2]

end PyCTBN
