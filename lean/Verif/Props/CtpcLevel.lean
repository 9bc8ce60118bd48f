import Verif.Props.CtpcRecode
import Verif.Props.CtpcExact

/-!
# Marginal independence, scarce data and constant variables
-/

namespace PyCTBN
open Spec Indep

/-! ## Level 0 -/

/-- If the test of `p` with the empty set accepts, the first round of the search removes `p`. -/
theorem innerLoop_removes {σ : Type} {T : CBTest σ} {J : σ → Prop} {p : Label} (hflag : ∀ s, J s → T.flag p s = .ok true)
    (htest : ∀ s, J s → ∃ s', T.test p [] s = (.ok true, s')) (hkeep : ∀ q, q ≠ p → ∀ S s, J s → J (T.test q S s).2)
    (child : Label) (u : List Label) (g : NetworkGraph) (idx : Nat) (s : σ) (hu : u.Nodup) (hp : p ∈ u.drop idx) (hs : J s)
    {u' : List Label} {g' : NetworkGraph} {s' : σ} (h : innerLoop T child 0 u g idx s = (.ok (u', g'), s')) : p ∉ u' := by
  fun_induction innerLoop T child 0 u g idx s with
  | case1 u g idx s hlt e s1 hv => cases h
  | case2 u g idx s hlt s1 hv ih =>
    by_cases hne : u[idx] = p
    · have := innerLoop_sublist _ _ _ _ _ _ h
      intro hpu
      have := this.subset hpu
      rw [hne] at this
      exact hu.not_mem_erase this
    · have hk := visit_keeps (hkeep _ hne) 0 u s hs
      rw [hv] at hk
      refine ih (hu.erase _) ?_ hk h
      rw [List.drop_eq_getElem_cons hlt] at hp
      have hp := (List.mem_cons.1 hp).resolve_left (fun e => hne e.symm)
      rw [hu.erase_getElem]
      rw [List.eraseIdx_eq_take_drop_succ, List.drop_append_of_le_length (by simp; omega)]
      exact List.mem_append_right _ hp
  | case3 u g idx s hlt s1 hv ih =>
    have hne : u[idx] ≠ p := by
      rintro rfl
      obtain ⟨s', he⟩ := htest s hs
      unfold visit at hv
      rw [hflag s hs] at hv
      simp only [subSetsOfSize_of_mem (List.getElem_mem hlt), combos, subsetLoop, he] at hv
      cases hv
    have hk := visit_keeps (hkeep _ hne) 0 u s hs
    rw [hv] at hk
    refine ih hu ?_ hk h
    rw [List.drop_eq_getElem_cons hlt] at hp
    exact (List.mem_cons.1 hp).resolve_left (fun e => hne e.symm)
  | case4 u g idx s hlt =>
    rw [List.drop_eq_nil_of_le (by omega)] at hp
    cases hp

/-- The tests of other candidates do not freeze the edge from `p`. -/
theorem uncached_keeps_flag {E : CBEnv} (hw : WFStructure E.struct) (hnd : E.struct.indexes.Nodup) {p child : Label} {c i j : Nat}
    (hp : p ∈ E.struct.labels) (hi : E.struct.getNodeIndx p = .ok i) (hj : E.struct.getNodeIndx child = .ok j) {q : Label} (hq : q ≠ p)
    (S : List Label) (s : List (List Bool)) (hs : getFlag s i j = .ok true) : getFlag ((uncached E child c).test q S s).2 i j = .ok true := by
  cases hqi : E.struct.getNodeIndx q with
  | error e =>
    simp only [uncached, CBEnv.calls, hqi]
    exact hs
  | ok k =>
    rw [CBEnv.test_uncached hqi hj]
    cases freshVerdict E child c q S with
    | error e => exact hs
    | ok v =>
      cases v with
      | accept => exact hs
      | reject => exact hs
      | rejectMark =>
        simp only
        cases hs' : setFalse s k j with
        | error e => exact hs
        | ok s1 =>
          simp only
          rw [setFalse_getFlag hs', if_neg]
          · exact hs
          · rintro ⟨rfl, -⟩
            have hqm : q ∈ E.struct.labels := by
              by_contra hn
              unfold Structure.getNodeIndx at hqi
              rw [pyIndex_of_not_mem hn] at hqi
              cases hqi
            exact hq (CBEnv.indx_inj hw hnd hqm hp hqi hi)

/-- **C139** A removable edge whose ends the first test, given no other variable, finds independent is never in the estimate. -/
theorem marginally_independent_dropped {E : CBEnv} (hw : WFStructure E.struct) (hnd : E.struct.indexes.Nodup) {m : List (List Bool)} {es : List Edge}
    (h : (E.ctpcSequential ⟨[], m⟩).1 = .ok es) {p child : Label} (hp : p ∈ E.struct.labels) (hc : child ∈ E.struct.labels) (hne : p ≠ child)
    (hr : removableEdge E m p child) {c : Nat} (hcs : E.struct.getStatesNumber child = .ok c)
    (hacc : freshVerdict E child c p [] = .ok .accept) : (p, child) ∉ es := by
  obtain ⟨i, j, hi, hj, hf⟩ := hr
  obtain ⟨esc, st', ho, hmem⟩ := ctpc_result hw hnd h hc
  rw [hmem]
  have h1 := (CBEnv.optimize_sim hw hc m).1
  rw [ho] at h1
  unfold uncachedOptimize at h1
  rw [hcs] at h1
  simp only at h1
  have hpo : p ∈ E.others child := CBEnv.others_mem.2 ⟨hp, hne⟩
  have hund := CBEnv.others_nodup hw child
  cases hr : outerLoop (uncached E child c) child 0 (E.others child) (E.startGraph child) m with
  | mk r1 m1 =>
    rw [hr] at h1
    cases r1 with
    | error e => simp at h1
    | ok v =>
      obtain ⟨u, g⟩ := v
      simp only [Except.ok.injEq] at h1
      subst h1
      unfold outerLoop at hr
      rw [if_pos (List.length_pos_of_mem hpo)] at hr
      split at hr
      · cases hr
      · rename_i u1 g1 s1 hin
        have hout := innerLoop_removes (T := uncached E child c) (J := fun m => getFlag m i j = .ok true) (p := p)
          (fun s hs => by simp only [uncached, CBEnv.calls, hi, hj, Except.bind_ok']; exact hs)
          (fun s hs => ⟨s, by rw [CBEnv.test_uncached hi hj, hacc]⟩)
          (fun q hq S s hs => uncached_keeps_flag hw hnd hp hi hj hq S s hs) child (E.others child) (E.startGraph child) 0 m hund
          (by simpa using hpo) hf hin
        obtain ⟨k1, k2⟩ := CBEnv.innerLoop_graph _ _ _ _ hund (CBEnv.startGraph_for child) hin
        obtain ⟨k3, k4⟩ := CBEnv.outerLoop_graph _ _ _ _ (hund.sublist k1) k2 hr
        intro hpe
        exact hout (k3.subset ((k4.mem _).1 ((CBEnv.mem_edgesView k4.keys).1 hpe)).2)

/-! ## Statistics given more or fewer variables -/

theorem given_row {s : Structure} {t : Trajectory} (hw : WFStructure s) (ht : DataOK s t) {r : List ℤ} (hr : r ∈ t.rows) {n : Label}
    (hn : n ∈ s.labels) (K : List Label) (a : Label → Nat) (x : Nat) :
    rowMatches s n (ordered s K) x ((ordered s K).map a) r = true ↔ natState s r n = x ∧ ∀ q ∈ ordered s K, natState s r q = a q := by
  have hm : ∀ l ∈ ordered s K, l ∈ s.labels := fun l hl => (List.mem_filter.1 hl).1
  rw [rowMatches_iff hw ht hr hn hm, List.map_inj_left]

theorem transitions_mono {s : Structure} {t : Trajectory} (hw : WFStructure s) (ht : DataOK s t) {n : Label} (hn : n ∈ s.labels) (K : List Label)
    (a : Label → Nat) (x y : Nat) : transitions s t n (ordered s K) x y ((ordered s K).map a) ≤
      transitions s t n (ordered s []) x y ((ordered s []).map a) := by
  unfold transitions
  rw [← List.countP_eq_length_filter, ← List.countP_eq_length_filter]
  apply List.countP_mono_left
  intro r hr h
  rw [Bool.and_eq_true] at h ⊢
  refine ⟨?_, h.2⟩
  rw [given_row hw ht hr hn]
  refine ⟨((given_row hw ht hr hn K a x).1 h.1).1, fun q hq => ?_⟩
  simp [ordered] at hq

theorem ordered_nil (s : Structure) : ordered s [] = [] := by simp [ordered]

/-- **C140** If the data about a variable are too scarce for its first test, then all its possible parents are in the estimate. -/
theorem scarce_data_keeps_all_edges {E : CBEnv} {P : IndepParams} {c : Nat} (hR : UniformRun E P c) {m : List (List Bool)} {es : List Edge}
    (h : (E.ctpcSequential ⟨[], m⟩).1 = .ok es) {child : Label} (hc : child ∈ E.struct.labels)
    (hs : Scarce P c (given E.struct E.traj child c [] (fun _ => 0)).count ((c - 1) ^ 2 * c)) {p : Label} (hp : p ∈ E.struct.labels) (hne : p ≠ child) :
    (p, child) ∈ es := by
  by_contra hout
  obtain ⟨-, c', S, hcs, h1, h2, h3, hv⟩ := dropped_only_on_evidence hR.wf hR.indexes h hp hc hne hout
  rw [uniform_card hR.wf hR.cards hc] at hcs
  cases hcs
  have ha : E.TestArgs p child S := ⟨hR.wf, hp, hc, h3, hne, h1, h2⟩
  obtain ⟨hno, -⟩ := (complete_test_accepts_iff hR ha).1 hv (fun _ => 0) (fun _ => hR.pos)
  apply hno
  obtain ⟨hc2, hlt⟩ := hs
  rw [if_pos hc2]
  refine ⟨hc2, ?_⟩
  have hc1 : 0 < c - 1 := by omega
  have hc0 := hR.pos
  have hth : 0 < (c - 1) ^ 2 * c := by positivity
  have hth' : (c - 1) ^ 2 * c ≤ (c - 1) ^ 2 * c * c ^ (ordered E.struct S).length := Nat.le_mul_of_pos_right _ (by positivity)
  unfold XR.div at hlt ⊢
  rw [if_neg (by exact_mod_cast hth.ne')] at hlt
  rw [if_neg (by exact_mod_cast (hth.trans_le hth').ne')]
  have hlt' : ((∑ x ∈ Finset.range c, (given E.struct E.traj child c [] (fun _ => 0)).count x x : ℕ) : ℝ) / (((c - 1) ^ 2 * c : ℕ) : ℝ) <
    P.thumbThreshold := hlt
  refine lt_of_le_of_lt ?_ hlt'
  have hsum : ∑ x ∈ Finset.range c, (given E.struct E.traj child c S (fun _ => 0)).count x x ≤
      ∑ x ∈ Finset.range c, (given E.struct E.traj child c [] (fun _ => 0)).count x x := by
    apply Finset.sum_le_sum
    intro x _
    simp only [given, observed, if_true]
    exact Finset.sum_le_sum (fun y _ => transitions_mono hR.wf hR.data hc S _ x y)
  have g1 : ((∑ x ∈ Finset.range c, (given E.struct E.traj child c S (fun _ => 0)).count x x : ℕ) : ℝ) ≤
    ((∑ x ∈ Finset.range c, (given E.struct E.traj child c [] (fun _ => 0)).count x x : ℕ) : ℝ) := by exact_mod_cast hsum
  have g2 : (((c - 1) ^ 2 * c : ℕ) : ℝ) ≤ (((c - 1) ^ 2 * c * c ^ (ordered E.struct S).length : ℕ) : ℝ) := by exact_mod_cast hth'
  have g3 : (0 : ℝ) < (((c - 1) ^ 2 * c : ℕ) : ℝ) := by exact_mod_cast hth
  exact div_le_div₀ (by positivity) g1 g3 g2

/-! ## Constant variables -/

/-- The variable is in the same state in all rows. -/
def Spec.NeverChanges (s : Structure) (t : Trajectory) (p : Label) : Prop := ∀ r ∈ t.rows, ∀ r' ∈ t.rows, stateOf s r p = stateOf s r' p

/-- Facts about the quantile functions of scipy: `NaN` for zero degrees of freedom; 1 lies between the two quantiles of an F distribution with
equal degrees of freedom; quantiles of a chi-square distribution are not negative. -/
structure Spec.SaneQuantiles (P : IndepParams) : Prop where
  zero_dof : ∀ q r1 r2, r1 = 0 ∨ r2 = 0 → P.fPpf q r1 r2 = .nan
  around_one : ∀ r : Nat, ¬ (XR.fin 1).lt (P.fPpf (P.expTestSign / 2) r r) ∧ ¬ (P.fPpf (1 - P.expTestSign / 2) r r).lt (.fin 1)
  chi_nonneg : ∀ d, ¬ (P.chi2Ppf (1 - P.chiTestAlfa) d).lt (.fin 0)

/-- The tests do not tell a sample from itself. -/
theorem not_told_apart_self {P : IndepParams} (hq : SaneQuantiles P) (c : Nat) (o : Stats) : ¬ ToldApart P c o o := by
  rintro ⟨x, hx, hF | ⟨-, hC⟩⟩
  · unfold FOutside XR.div at hF
    by_cases hd : (o.intensity x x : ℝ) = 0
    · rw [if_pos hd, hd] at hF
      unfold XR.infOf at hF
      rw [if_neg (lt_irrefl _), if_neg (lt_irrefl _)] at hF
      rcases hF with h | h
      · exact h
      · exact XR.not_lt_nan _ h
    · rw [if_neg hd, div_self hd] at hF
      rcases hF with h | h
      · exact (hq.around_one _).1 h
      · exact (hq.around_one _).2 h
  · have : chiSquare c o.count o.count x = 0 := by
      unfold chiSquare
      apply Finset.sum_eq_zero
      intro y _
      rw [mul_comm, sub_self]
      simp
    rw [this] at hC
    exact hq.chi_nonneg _ hC

/-- The tests do not tell a sample without transitions from any other. -/
theorem not_told_apart_empty {P : IndepParams} (hq : SaneQuantiles P) (c : Nat) {o1 o2 : Stats} (h : ∀ x y, o2.count x y = 0) :
    ¬ ToldApart P c o1 o2 := by
  rintro ⟨x, hx, hF | ⟨hd, hC⟩⟩
  · unfold FOutside at hF
    rw [hq.zero_dof _ _ _ (.inr (by rw [h]; simp)), hq.zero_dof _ _ _ (.inr (by rw [h]; simp))] at hF
    rcases hF with h | h
    · exact XR.not_lt_nan _ h
    · exact h
  · have hC0 : chiSquare c o1.count o2.count x = 0 := by
      unfold chiSquare
      apply Finset.sum_eq_zero
      intro y hy
      have := (hd y (Finset.mem_range.1 (Finset.mem_of_mem_erase hy)) (Finset.ne_of_mem_erase hy)).2.1
      rw [h] at this
      exact absurd this (lt_irrefl _)
    rw [hC0] at hC
    exact hq.chi_nonneg _ hC

theorem given_constant {s : Structure} {t : Trajectory} (hw : WFStructure s) (ht : DataOK s t) {n p : Label} (hn : n ∈ s.labels) (hp : p ∈ s.labels)
    (hcon : NeverChanges s t p) (c : Nat) (a : Label → Nat) :
    given s t n c [p] a = given s t n c [] a ∨ ∀ x y, (given s t n c [p] a).count x y = 0 := by
  have hmem : ∀ q, q ∈ ordered s [p] ↔ q = p := by
    intro q
    unfold ordered
    rw [List.mem_filter]
    simp only [List.mem_singleton, decide_eq_true_eq]
    exact ⟨fun h => h.2, fun h => ⟨h ▸ hp, h⟩⟩
  by_cases hall : ∀ r ∈ t.rows, natState s r p = a p
  · left
    have key : ∀ x, ∀ r ∈ t.rows, rowMatches s n (ordered s [p]) x ((ordered s [p]).map a) r =
        rowMatches s n (ordered s []) x ((ordered s []).map a) r := by
      intro x r hr
      rw [Bool.eq_iff_iff, given_row hw ht hr hn, given_row hw ht hr hn]
      refine and_congr_right (fun _ => ?_)
      constructor
      · intro _ q hq; simp [ordered] at hq
      · intro _ q hq; rw [(hmem q).1 hq]; exact hall r hr
    have k1 : ∀ x, residence s t n (ordered s [p]) x ((ordered s [p]).map a) = residence s t n (ordered s []) x ((ordered s []).map a) := by
      intro x
      unfold residence
      congr 2
      apply List.filter_congr
      intro r hr
      exact key x r.2 (List.of_mem_zip (show (r.1, r.2) ∈ _ from hr)).2
    have k2 : ∀ x y, transitions s t n (ordered s [p]) x y ((ordered s [p]).map a) = transitions s t n (ordered s []) x y ((ordered s []).map a) := by
      intro x y
      unfold transitions
      congr 1
      apply List.filter_congr
      intro r hr
      rw [key x r hr]
    unfold given observed
    simp only [k1, k2]
  · right
    push Not at hall
    obtain ⟨r0, hr0, hne⟩ := hall
    have k2 : ∀ x y, transitions s t n (ordered s [p]) x y ((ordered s [p]).map a) = 0 := by
      intro x y
      unfold transitions
      rw [List.length_eq_zero_iff, List.filter_eq_nil_iff]
      intro r hr h
      rw [Bool.and_eq_true] at h
      have := ((given_row hw ht hr hn [p] a x).1 h.1).2 p ((hmem p).2 rfl)
      apply hne
      rw [← this]
      unfold natState
      rw [hcon r0 hr0 r hr]
    intro x y
    simp only [given, observed, k2, Finset.sum_const_zero, ite_self]

/-- **C141** A variable that never changes in the data is reported as a parent, of a child for which it was removable, exactly when the data about the
child are too scarce for the first test. -/
theorem constant_variable_reported_iff {E : CBEnv} {P : IndepParams} {c : Nat} (hR : UniformRun E P c) (hq : SaneQuantiles P)
    {m : List (List Bool)} {es : List Edge} (h : (E.ctpcSequential ⟨[], m⟩).1 = .ok es) {p child : Label} (hp : p ∈ E.struct.labels)
    (hc : child ∈ E.struct.labels) (hne : p ≠ child) (hr : removableEdge E m p child) (hcon : NeverChanges E.struct E.traj p) :
    (p, child) ∈ es ↔ Scarce P c (given E.struct E.traj child c [] (fun _ => 0)).count ((c - 1) ^ 2 * c) := by
  constructor
  · intro hin
    by_contra hns
    refine marginally_independent_dropped hR.wf hR.indexes h hp hc hne hr (uniform_card hR.wf hR.cards hc) ?_ hin
    rw [complete_test_accepts_iff hR ⟨hR.wf, hp, hc, by simp, hne, by simp, by simp⟩]
    intro a _
    have e0 : given E.struct E.traj child c [] a = given E.struct E.traj child c [] (fun _ => 0) := by
      unfold given
      rw [ordered_nil]
      rfl
    constructor
    · rw [e0, ordered_nil]
      intro hs
      rw [if_pos hs.1] at hs
      simp only [List.length_nil, pow_zero, mul_one] at hs
      exact hns hs
    · rcases given_constant hR.wf hR.data hc hp hcon c a with e | e
      · rw [e]; exact not_told_apart_self hq c _
      · exact not_told_apart_empty hq c e
  · intro hs
    exact scarce_data_keeps_all_edges hR h hc hs hp hne

/-- For variables with at most two states: never. -/
theorem constant_variable_not_reported {E : CBEnv} {P : IndepParams} {c : Nat} (hR : UniformRun E P c) (hq : SaneQuantiles P) (hc2 : c ≤ 2)
    {m : List (List Bool)} {es : List Edge} (h : (E.ctpcSequential ⟨[], m⟩).1 = .ok es) {p child : Label} (hp : p ∈ E.struct.labels)
    (hc : child ∈ E.struct.labels) (hne : p ≠ child) (hr : removableEdge E m p child) (hcon : NeverChanges E.struct E.traj p) :
    (p, child) ∉ es := by
  rw [constant_variable_reported_iff hR hq h hp hc hne hr hcon]
  exact not_scarce_small hc2 _ _

end PyCTBN
