import Verif.Lemmas.Indep
import Verif.Props.Ctpc
import Mathlib.Algebra.Order.Archimedean.Basic
import Mathlib.Tactic.IntervalCases

/-!
# The two-CIM test (C39–C41)
-/

namespace PyCTBN
open Spec Indep

/-! ## C39 -/

/-- C39: `independence_test` never raises, and decides exactly by its three rules. -/
theorem two_cim_test_exact (P : IndepParams) {c : Nat} {t1 t2 : Nat → ℚ} {m1 m2 : Nat → Nat → Nat} {q1 q2 : Nat → Nat → ℚ}
    (h1 : ExitCounts c m1) (h2 : ExitCounts c m2) (thumb : Nat) :
    ∃ v, independenceTest P c (cimOf c t1 m1 q1) (cimOf c t2 m2 q2) thumb = .ok v ∧
      (v = .rejectMark ↔ Scarce P c m1 thumb) ∧
      (v = .accept ↔ ¬ Scarce P c m1 thumb ∧ (∀ x, x < c → ¬ FOutside P m1 m2 q1 q2 x) ∧
        (∀ x, x < c → ¬ ChiExceeds P c m1 m2 x)) ∧
      (v = .reject ↔ ¬ Scarce P c m1 thumb ∧ ((∃ x, x < c ∧ FOutside P m1 m2 q1 q2 x) ∨
        (∃ x, x < c ∧ ChiExceeds P c m1 m2 x))) := by
  classical
  have hs : tooScarce P c (matrixOf c m1) thumb = decide (Scarce P c m1 thumb) := by
    unfold tooScarce Scarce
    rw [diagonal_matrixOf]
    have : ((List.range c).map (fun x => m1 x x)).sum = ∑ x ∈ Finset.range c, m1 x x := by
      rw [← List.sum_toFinset _ List.nodup_range]; congr 1; ext; simp
    rw [this]
    exact decide_eq_decide.2 Iff.rfl
  have hf : ∀ x ∈ List.range c, fRejects P (matrixOf c q1) (matrixOf c q2) (diagonal (matrixOf c m1)) (diagonal (matrixOf c m2)) x
      = .ok (decide (FOutside P m1 m2 q1 q2 x)) := by
    intro x hx
    have hx := List.mem_range.1 hx
    unfold fRejects
    simp only [diagonal_matrixOf, pyGet_range_map hx, Except.bind_ok']
    exact congrArg Except.ok (decide_eq_decide.2 Iff.rfl)
  have hc : ∀ x ∈ List.range c, chiRejects P c (matrixOf c m1) (matrixOf c m2) (diagonal (matrixOf c m1)) (diagonal (matrixOf c m2)) x
      = .ok (decide (ChiExceeds P c m1 m2 x)) := by
    intro x hx
    have hx := List.mem_range.1 hx
    unfold chiRejects
    simp only [diagonal_matrixOf, noDiag_matrixOf, pyGet_range_map hx, Except.bind_ok']
    obtain ⟨k1, k2⟩ := chi_closed hx h1 h2
    unfold ChiExceeds
    by_cases hd : ChiDefined c m1 m2 x
    · rw [k1 hd]; simp only [hd, true_and]; rfl
    · rw [k2 hd]; simp only [hd, false_and, XR.not_lt_nan]; rfl
  unfold independenceTest
  simp only [cimOf, hs]
  rw [anyRound_ok _ hf, anyRound_ok _ hc]
  by_cases k0 : Scarce P c m1 thumb
  · exact ⟨.rejectMark, by simp [k0], by simp [k0], by simp [k0], by simp [k0]⟩
  · by_cases k1 : ∃ x, x < c ∧ FOutside P m1 m2 q1 q2 x
    · refine ⟨.reject, by simp [k0, k1], by simp [k0], ?_, by simp [k0, k1]⟩
      obtain ⟨x, hx, hxf⟩ := k1
      simp only [reduceCtorEq, false_iff, not_and]
      intro _ h; exact absurd hxf (h x hx)
    · by_cases k2 : ∃ x, x < c ∧ ChiExceeds P c m1 m2 x
      · refine ⟨.reject, by simp [k0, k1, k2], by simp [k0], ?_, by simp [k0, k2]⟩
        obtain ⟨x, hx, hxf⟩ := k2
        simp only [reduceCtorEq, false_iff, not_and]
        intro _ _ h; exact absurd hxf (h x hx)
      · refine ⟨.accept, by simp [k0, k1, k2], by simp [k0], ?_, by simp [k0, k1, k2]⟩
        push Not at k1 k2
        simp only [true_iff]
        exact ⟨k0, k1, k2⟩

/-- The hypotheses are met by counts of a child with three states. -/
example : ExitCounts 3 (fun x y => if x = y then 2 else 1) := by
  intro x hx; interval_cases x <;> decide

/-! ## C40 -/

theorem exitCounts_two {m : Nat → Nat → Nat} (h : ExitCounts 2 m) : m 0 0 = m 0 1 ∧ m 1 1 = m 1 0 := by
  constructor
  · rw [h 0 (by omega)]; have : (Finset.range 2).erase 0 = {1} := by decide
    rw [this]; simp
  · rw [h 1 (by omega)]; have : (Finset.range 2).erase 1 = {0} := by decide
    rw [this]; simp

/-- C40 is false of children with two states (and of constants): with the quantile of a chi-square distribution, which is
never negative, the chi-square part never rejects, whatever the counts. -/
theorem chi_test_void_for_binary_child (P : IndepParams) {c : Nat} (hc : c ≤ 2) {m1 m2 : Nat → Nat → Nat}
    (h1 : ExitCounts c m1) (h2 : ExitCounts c m2) (hq : ¬ (P.chi2Ppf (1 - P.chiTestAlfa) ((c : ℝ) - 1)).lt (.fin 0))
    {x : Nat} (hx : x < c) : ¬ ChiExceeds P c m1 m2 x := by
  rintro ⟨_, hlt⟩
  have : chiSquare c m1 m2 x = 0 := by
    unfold chiSquare
    interval_cases c
    · omega
    · obtain rfl : x = 0 := by omega
      simp
    · obtain ⟨a1, a2⟩ := exitCounts_two h1
      obtain ⟨b1, b2⟩ := exitCounts_two h2
      apply Finset.sum_eq_zero
      intro y hy
      simp only [Finset.mem_erase, Finset.mem_range] at hy
      interval_cases x
      · obtain rfl : y = 1 := by omega
        rw [a1, b1]; simp [mul_comm]
      · obtain rfl : y = 0 := by omega
        rw [a2, b2]; simp [mul_comm]
  rw [this] at hlt
  exact hq hlt

/-- C40 is false of every child for which some transition was never seen: the statistic of that state is `NaN` and does
not reject, however different the other proportions are. -/
theorem chi_test_void_for_unseen_transition (P : IndepParams) {c : Nat} {m1 m2 : Nat → Nat → Nat} {x y : Nat} (hy : y < c)
    (hyx : y ≠ x) (h : m1 x y + m2 x y = 0) : ¬ ChiExceeds P c m1 m2 x := by
  rintro ⟨hd, _⟩
  have := (hd y hy hyx).2.2
  omega

/-- What remains of C40: if the state has all its transitions observed and the next-state proportions differ, then the
statistic grows linearly with the amount of data, so that with enough data of the same proportions the chi-square part
rejects.  (`c ≥ 3` is implied by the hypotheses.) -/
theorem chi_test_rejects_eventually_partial (P : IndepParams) {c : Nat} {m1 m2 : Nat → Nat → Nat} {x : Nat}
    (hd : ChiDefined c m1 m2 x) {q : ℝ} (hq : P.chi2Ppf (1 - P.chiTestAlfa) ((c : ℝ) - 1) = .fin q)
    {y : Nat} (hy : y < c) (hyx : y ≠ x) (hne : m1 x x * m2 x y ≠ m2 x x * m1 x y) :
    ∃ K : Nat, ∀ k ≥ K, ChiExceeds P c (fun i j => k * m1 i j) (fun i j => k * m2 i j) x := by
  obtain ⟨p1, p2, p3⟩ := hd y hy hyx
  have hpos : 0 < chiSquare c m1 m2 x := by
    unfold chiSquare
    refine Finset.sum_pos' (fun z hz => by positivity) ⟨y, Finset.mem_erase.2 ⟨hyx, Finset.mem_range.2 hy⟩, ?_⟩
    have : ((m1 x x : ℝ) * m2 x y - m2 x x * m1 x y) ≠ 0 := by
      rw [sub_ne_zero]; exact_mod_cast hne
    have h1 : (0 : ℝ) < m1 x x := by exact_mod_cast p1
    have h2 : (0 : ℝ) < m2 x x := by exact_mod_cast p2
    have h3 : (0 : ℝ) < m1 x y + m2 x y := by exact_mod_cast p3
    positivity
  obtain ⟨K, hK⟩ := exists_nat_gt (q / chiSquare c m1 m2 x)
  refine ⟨K + 1, fun k hk => ?_⟩
  have k0 : 0 < k := by omega
  refine ⟨fun z hz hzx => ?_, ?_⟩
  · obtain ⟨a, b, d⟩ := hd z hz hzx
    refine ⟨Nat.mul_pos k0 a, Nat.mul_pos k0 b, ?_⟩
    have := Nat.mul_pos k0 d
    rwa [Nat.mul_add] at this
  · rw [hq]
    show q < chiSquare c _ _ x
    have hs : chiSquare c (fun i j => k * m1 i j) (fun i j => k * m2 i j) x = k * chiSquare c m1 m2 x := by
      unfold chiSquare
      rw [Finset.mul_sum]
      apply Finset.sum_congr rfl
      intro z hz
      simp only [Finset.mem_erase, Finset.mem_range] at hz
      obtain ⟨a, b, d⟩ := hd z hz.2 hz.1
      have h0 : (0 : ℝ) < k := by exact_mod_cast k0
      have h1 : (0 : ℝ) < m1 x x := by exact_mod_cast a
      have h2 : (0 : ℝ) < m2 x x := by exact_mod_cast b
      have h3 : (0 : ℝ) < m1 x z + m2 x z := by exact_mod_cast d
      push_cast
      field_simp
    rw [hs]
    have : q / chiSquare c m1 m2 x < k := hK.trans_le (by exact_mod_cast (by omega : K ≤ k))
    rwa [div_lt_iff₀ hpos] at this

/-- The hypotheses of `chi_test_rejects_eventually_partial` are met. -/
example : ∃ m1 m2 : Nat → Nat → Nat, ChiDefined 3 m1 m2 0 ∧ ExitCounts 3 m1 ∧ ExitCounts 3 m2 ∧ m1 0 0 * m2 0 1 ≠ m2 0 0 * m1 0 1 := by
  refine ⟨fun x y => if x = y then 2 else 1, fun x y => if x = y then 4 else if y = (x + 1) % 3 then 1 else 3, ?_, ?_, ?_, by decide⟩
  · intro y hy h0; interval_cases y <;> simp at h0 ⊢
  · intro x hx; interval_cases x <;> decide
  · intro x hx; interval_cases x <;> decide

/-! ## C41 -/

/-- C41: the value is the product of the documented factors. -/
theorem thumb_value_exact (parentVal childVal : Nat) (setVals : List Nat) :
    CBEnv.computeThumbValue parentVal childVal setVals = (childVal - 1) ^ 2 * parentVal * setVals.prod := by
  unfold CBEnv.computeThumbValue
  generalize (childVal - 1) ^ 2 * parentVal = a
  induction setVals generalizing a with
  | nil => simp
  | cons v l ih => rw [List.foldl_cons, ih, List.prod_cons, mul_assoc]

/-- C41: and positive for proper cardinalities. -/
theorem thumb_value_pos {parentVal childVal : Nat} {setVals : List Nat} (hp : 0 < parentVal) (hc : 2 ≤ childVal)
    (hs : ∀ v ∈ setVals, 0 < v) : 0 < CBEnv.computeThumbValue parentVal childVal setVals := by
  rw [thumb_value_exact]
  have : 0 < setVals.prod := List.prod_pos hs
  have : 0 < childVal - 1 := by omega
  positivity

/-! ## Consequences for the search -/

theorem noUB_anyRound {f : Nat → Py Bool} (hf : ∀ v, NoUB (f v)) (l : List Nat) : NoUB (anyRound f l) := by
  induction l with
  | nil => exact NoUB.ok _
  | cons v l ih =>
    refine (hf v).bind (fun b _ => ?_)
    cases b
    · exact ih
    · exact NoUB.ok _

/-- C28 for the code's own two-CIM test: whatever the parameters and quantile functions, the search never raises an
`UnboundLocalError`. -/
theorem search_never_unbound_real_test (P : IndepParams) {E : CBEnv} (hE : E.twoCim = independenceTest P)
    (hw : WFStructure E.struct) {child : Label} (hc : child ∈ E.struct.labels) (m : List (List Bool)) :
    (E.optimize ⟨[], m⟩ child).1 ≠ .error .unboundLocalError := by
  refine search_never_unbound_partial hw (fun c a b th => ?_) hc m
  rw [hE]
  unfold independenceTest
  simp only
  split
  · exact NoUB.ok _
  · refine (noUB_anyRound (fun v => ?_) _).bind (fun b _ => ?_)
    · exact (noUB_pyGet _ _).bind (fun _ _ => (noUB_pyGet _ _).bind (fun _ _ => (noUB_pyGet _ _).bind (fun _ _ =>
        (noUB_pyGet _ _).bind (fun _ _ => NoUB.ok _))))
    · cases b
      · refine (noUB_anyRound (fun v => ?_) _).bind (fun b _ => ?_)
        · exact (noUB_pyGet _ _).bind (fun _ _ => (noUB_pyGet _ _).bind (fun _ _ => (noUB_pyGet _ _).bind (fun _ _ =>
            (noUB_pyGet _ _).bind (fun _ _ => NoUB.ok _))))
        · cases b <;> exact NoUB.ok _
      · exact NoUB.ok _

/-- Where the data-size rule does not apply, the two-CIM test does not freeze edges. -/
theorem independenceTest_no_mark (P : IndepParams) {c : Nat} (hc : c ≤ 2) (a b : Cim) (th : Nat) :
    independenceTest P c a b th ≠ .ok .rejectMark := by
  have h0 : tooScarce P c a.trans th = false := by
    unfold tooScarce; rw [decide_eq_false_iff_not]; omega
  unfold independenceTest
  simp only [h0, Bool.false_eq_true, if_false]
  cases anyRound (fRejects P a.cim b.cim (diagonal a.trans) (diagonal b.trans)) (List.range c) with
  | error e => simp
  | ok v => cases v with
    | true => simp
    | false =>
      simp only [Except.bind_ok', Bool.false_eq_true, if_false]
      cases anyRound (chiRejects P c a.trans b.trans (diagonal a.trans) (diagonal b.trans)) (List.range c) with
      | error e => simp
      | ok v => cases v <;> simp

theorem compareInner_no_mark {E : CBEnv} {c : Nat} (h : ∀ a b th, E.twoCim c a b th ≠ .ok .rejectMark) (th : Nat) (a : Cim)
    (l : List Cim) : E.compareInner c th a l ≠ .ok .rejectMark := by
  induction l with
  | nil => simp [CBEnv.compareInner]
  | cons b l ih =>
    unfold CBEnv.compareInner
    cases h2 : E.twoCim c a b th with
    | error e => simp
    | ok v => cases v with
      | accept => exact ih
      | reject => simp
      | rejectMark => exact absurd h2 (h a b th)

theorem compareLoop_no_mark {E : CBEnv} {c : Nat} (h : ∀ a b th, E.twoCim c a b th ≠ .ok .rejectMark) (th : Nat)
    (s2 : SetOfCims) (mask : List Bool) (l : List (Cim × List Nat)) : E.compareLoop c th s2 mask l ≠ .ok .rejectMark := by
  induction l with
  | nil => simp [CBEnv.compareLoop]
  | cons x l ih =>
    obtain ⟨a, comb⟩ := x
    unfold CBEnv.compareLoop
    cases s2.filterCims mask comb with
    | error e => simp
    | ok conds =>
      simp only [Except.bind_ok']
      cases h2 : E.compareInner c th a conds with
      | error e => simp
      | ok v => cases v with
        | accept => exact ih
        | reject => simp
        | rejectMark => exact absurd h2 (compareInner_no_mark h th a conds)

theorem completeTest_no_mark {E : CBEnv} {c : Nat} (h : ∀ a b th, E.twoCim c a b th ≠ .ok .rejectMark) (st : CBState)
    (p child : Label) (S : List Label) (i j : Nat) : (E.completeTest st p child S c i j).2.removable = st.removable := by
  have hv : (E.verdict st.cache p child S c).1 ≠ .ok .rejectMark := by
    unfold CBEnv.verdict
    generalize E.withParent st.cache p child S = r
    obtain ⟨r1, c1⟩ := r
    cases r1 with
    | error e => simp
    | ok v =>
      obtain ⟨g2, s2⟩ := v
      simp only
      generalize E.withoutParent c1 g2 p child S = r
      obtain ⟨r1, c2⟩ := r
      cases r1 with
      | error e => simp
      | ok s1 =>
        simp only
        cases E.thumb p S c with
        | error e => simp
        | ok th => exact compareLoop_no_mark h th _ _ _
  unfold CBEnv.completeTest
  revert hv
  generalize E.verdict st.cache p child S c = r
  obtain ⟨r1, c1⟩ := r
  intro hv
  cases r1 with
  | error e => rfl
  | ok v => cases v with
    | accept => rfl
    | reject => rfl
    | rejectMark => exact absurd rfl hv

theorem optimize_no_mark {E : CBEnv} {child : Label} {c : Nat} (hcs : E.struct.getStatesNumber child = .ok c)
    (h : ∀ a b th, E.twoCim c a b th ≠ .ok .rejectMark) (st : CBState) :
    (E.optimize st child).2.removable = st.removable := by
  unfold CBEnv.optimize
  rw [hcs]
  simp only
  have := PyCTBN.outerLoop_le (T := E.calls child c) (Le := fun s t : CBState => t.removable = s.removable)
    (fun _ => rfl) (fun _ _ _ h1 h2 => h2.trans h1) (fun p S s => by
      simp only [CBEnv.calls]
      split
      · exact completeTest_no_mark h s p child S _ _
      · rfl
      · rfl) child 0 (E.others child) (E.startGraph child) st
  revert this
  generalize outerLoop (E.calls child c) child 0 (E.others child) (E.startGraph child) st = r
  obtain ⟨r1, s1⟩ := r
  intro h1
  cases r1 <;> exact h1

/-- C35 for the code's own two-CIM test: if no variable has more than two states, then a second sequential run on the same
estimator repeats the first. -/
theorem sequential_rerun_same_binary (P : IndepParams) {E : CBEnv} (hE : E.twoCim = independenceTest P)
    (hw : WFStructure E.struct) (hnd : E.struct.indexes.Nodup) (hv : ∀ v ∈ E.struct.vals, v ≤ 2)
    {m : List (List Bool)} {es : List Edge} {st : CBState} (h : E.ctpcSequential ⟨[], m⟩ = (.ok es, st)) :
    (E.ctpcSequential st).1 = .ok es := by
  have key : ∀ (ns : List Label), (∀ n ∈ ns, n ∈ E.struct.labels) → ∀ s : CBState,
      (E.ctpcSeqLoop ns s).2.removable = s.removable := by
    intro ns
    induction ns with
    | nil => intro _ s; rfl
    | cons n ns ih =>
      intro hns s
      obtain ⟨c, hcv, hcs⟩ := getStatesNumber_mem hw (hns n (by simp))
      have h1 := optimize_no_mark hcs (fun a b th => by
        rw [hE]; exact independenceTest_no_mark P (hv c hcv) a b th) s
      unfold CBEnv.ctpcSeqLoop
      revert h1
      generalize E.optimize s n = r
      obtain ⟨r1, s1⟩ := r
      intro h1
      cases r1 with
      | error e => exact h1
      | ok e1 =>
        simp only
        have h2 := ih (fun x hx => hns x (by simp [hx])) s1
        revert h2
        generalize E.ctpcSeqLoop ns s1 = r
        obtain ⟨r1, s2⟩ := r
        intro h2
        cases r1 <;> exact h2.trans h1
  have hst : st.removable = m := by
    have h1 := key E.struct.labels (fun n hn => hn) ⟨[], m⟩
    unfold CBEnv.ctpcSequential at h
    revert h h1
    generalize E.ctpcSeqLoop E.struct.labels ⟨[], m⟩ = r
    obtain ⟨r1, s1⟩ := r
    intro h h1
    cases r1 with
    | error e => simp at h
    | ok ess => simp only [Prod.mk.injEq] at h; rw [← h.2]; exact h1
  exact sequential_rerun_same_partial hw hnd h (fun p child _ _ _ h1 h2 => by rw [hst] at h2; exact absurd h1 h2)

end PyCTBN
