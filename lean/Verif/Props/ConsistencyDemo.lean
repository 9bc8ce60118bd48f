import Verif.Props.Consistency

/-!
# Growing data sets: a family that meets the hypotheses, and where impossible transitions hide a parent
-/

namespace PyCTBN
open Spec Indep Filter Topology

theorem repeated_ok {s : Structure} {t : Trajectory} (h : DataOK s t) (n : Nat) : DataOK s (repeated t n) where
  origCols := h.origCols
  len := by simp [repeated, h.len]
  width r hr := by
    obtain ⟨l, hl, hr⟩ := List.mem_flatten.1 hr
    rw [(List.mem_replicate.1 hl).2] at hr
    exact h.width r hr
  idx_lt := h.idx_lt
  cur r hr := by
    obtain ⟨l, hl, hr⟩ := List.mem_flatten.1 hr
    rw [(List.mem_replicate.1 hl).2] at hr
    exact h.cur r hr
  nxt r hr := by
    obtain ⟨l, hl, hr⟩ := List.mem_flatten.1 hr
    rw [(List.mem_replicate.1 hl).2] at hr
    exact h.nxt r hr

theorem transitions_repeated (s : Structure) (t : Trajectory) (n : Nat) (child : Label) (ps : List Label) (x y : Nat) (u : List Nat) :
    transitions s (repeated t n) child ps x y u = n * transitions s t child ps x y u := by
  unfold transitions repeated
  simp only
  induction n with
  | zero => simp
  | succ n ih =>
    rw [List.replicate_succ, List.flatten_cons, List.filter_append, List.length_append, ih]
    ring

theorem residence_repeated (s : Structure) (t : Trajectory) (hl : t.times.length = t.rows.length) (n : Nat) (child : Label) (ps : List Label) (x : Nat)
    (u : List Nat) : residence s (repeated t n) child ps x u = n * residence s t child ps x u := by
  unfold residence repeated
  simp only
  induction n with
  | zero => simp
  | succ n ih =>
    rw [List.replicate_succ, List.replicate_succ, List.flatten_cons, List.flatten_cons, List.zip_append hl, List.filter_append, List.map_append,
      List.sum_append, ih]
    push_cast
    ring

theorem given_repeated (s : Structure) (t : Trajectory) (hl : t.times.length = t.rows.length) (n : Nat) (child : Label) (c : Nat) (K : List Label)
    (a : Label → Nat) : (∀ x y, (given s (repeated t n) child c K a).count x y = n * (given s t child c K a).count x y) ∧
      ∀ x, (given s (repeated t n) child c K a).time x = n * (given s t child c K a).time x := by
  constructor
  · intro x y
    simp only [given, observed, transitions_repeated]
    split
    · rw [Finset.mul_sum]
    · rfl
  · intro x
    simp only [given, observed, residence_repeated s t hl]

theorem leaves_repeated {s : Structure} {t : Trajectory} (hl : t.times.length = t.rows.length) {child : Label} {c : Nat} {K : List Label}
    {a : Label → Nat} {x : Nat} (hT : 0 < (given s t child c K a).time x) :
    LeavesAtRate (fun k => given s (repeated t k) child c K a) x (((given s t child c K a).count x x : ℝ) / ((given s t child c K a).time x : ℝ)) := by
  have hT' : (0 : ℝ) < ((given s t child c K a).time x : ℝ) := by exact_mod_cast hT
  constructor
  · have : Tendsto (fun k : ℕ => (k : ℝ) * ((given s t child c K a).time x : ℝ)) atTop atTop := tendsto_natCast_atTop_atTop.atTop_mul_const hT'
    refine this.congr (fun k => ?_)
    rw [(given_repeated s t hl k child c K a).2]
    push_cast
    rfl
  · refine tendsto_const_nhds.congr' ?_
    filter_upwards [eventually_gt_atTop 0] with k hk
    rw [(given_repeated s t hl k child c K a).2, (given_repeated s t hl k child c K a).1]
    have : (0 : ℝ) < k := by exact_mod_cast hk
    push_cast
    field_simp

namespace Demo

open Classical in
/-- Quantiles `1 ± 3 / (r1 + r2)`, which tend to 1 as quantiles of F distributions do; the strictest chi-square quantile. -/
noncomputable def tightParams : IndepParams where
  expTestSign := 1 / 10
  chiTestAlfa := 1 / 10
  thumbThreshold := (0 : ℚ)
  fPpf q r1 r2 := if r1 = 0 ∨ r2 = 0 then .nan else .fin (if q < 1 / 2 then 1 - 3 / (r1 + r2) else 1 + 3 / (r1 + r2))
  chi2Ppf _ _ := .fin 0

theorem tight_lo (r1 r2 : ℝ) : tightParams.fPpf (tightParams.expTestSign / 2) r1 r2 = if r1 = 0 ∨ r2 = 0 then .nan else .fin (1 - 3 / (r1 + r2)) := by
  show (if r1 = 0 ∨ r2 = 0 then XR.nan else XR.fin (if (1 : ℝ) / 10 / 2 < 1 / 2 then 1 - 3 / (r1 + r2) else 1 + 3 / (r1 + r2))) = _
  rw [if_pos (by norm_num : (1 : ℝ) / 10 / 2 < 1 / 2)]

theorem tight_hi (r1 r2 : ℝ) : tightParams.fPpf (1 - tightParams.expTestSign / 2) r1 r2 = if r1 = 0 ∨ r2 = 0 then .nan else .fin (1 + 3 / (r1 + r2)) := by
  show (if r1 = 0 ∨ r2 = 0 then XR.nan else XR.fin (if (1 : ℝ) - 1 / 10 / 2 < 1 / 2 then 1 - 3 / (r1 + r2) else 1 + 3 / (r1 + r2))) = _
  rw [if_neg (by norm_num : ¬ (1 : ℝ) - 1 / 10 / 2 < 1 / 2)]

theorem tight_tightens (c : Nat) : QuantilesTighten tightParams c where
  f ε hε := by
    obtain ⟨N, hN⟩ := exists_nat_gt (3 / ε)
    refine ⟨N + 1, fun r1 r2 h1 h2 => ?_⟩
    have g1 : ((N : ℝ) + 1) ≤ r1 := by exact_mod_cast h1
    have g2 : ((N : ℝ) + 1) ≤ r2 := by exact_mod_cast h2
    have hN0 : (0 : ℝ) ≤ N := Nat.cast_nonneg N
    have hz : ¬ ((r1 : ℝ) = 0 ∨ (r2 : ℝ) = 0) := by
      rintro (h | h) <;> linarith
    refine ⟨_, _, by rw [tight_lo, if_neg hz], by rw [tight_hi, if_neg hz], ?_, ?_⟩
    all_goals
      have hs : (0 : ℝ) < r1 + r2 := by linarith
      have h3 : 3 / ((r1 : ℝ) + r2) < ε := by
        rw [div_lt_iff₀ hs]
        rw [div_lt_iff₀ hε] at hN
        nlinarith
      have h4 : 0 < 3 / ((r1 : ℝ) + r2) := by positivity
      rw [abs_lt]
      constructor <;> linarith
  chi := ⟨0, rfl⟩

theorem tight_sane : SaneQuantiles tightParams where
  zero_dof q r1 r2 h := if_pos h
  around_one r := by
    rw [tight_lo, tight_hi]
    split
    · exact ⟨XR.not_lt_nan _, fun h => h⟩
    · have : (0 : ℝ) ≤ 3 / ((r : ℝ) + r) := by positivity
      exact ⟨not_lt.2 (by linarith), not_lt.2 (by linarith)⟩
  chi_nonneg d := fun h => absurd h (lt_irrefl _)

/-- `X` is left at rate 1 while `Y = 0` and at rate 1/3 while `Y = 1`. -/
def rateData : Trajectory := ⟨[1, 1, 3, 3], [[0, 0, 1, 0], [1, 0, 0, 0], [0, 1, 1, 1], [1, 1, 0, 1]], 3⟩
theorem rateData_ok : DataOK sXY rateData := dataOK_of_check _ _ sXY_wf rfl rfl (by decide) (by decide) (by decide)

theorem rateData_run (k : Nat) : UniformRun ⟨sXY, sXY.total, repeated rateData k, independenceTest tightParams⟩ tightParams 2 :=
  uniformRun_of sXY_wf (repeated_ok rateData_ok k) (by decide) (by norm_num) rfl (by decide)

theorem rateData_depends (S : List Label) (hS : ∀ q ∈ S, q ∈ sXY.labels) (h1 : "Y" ∉ S) (h2 : "X" ∉ S) :
    BehavesDifferently sXY (repeated rateData) "X" 2 S ("Y" :: S) := by
  have : S = [] := by
    rw [List.eq_nil_iff_forall_not_mem]
    intro q hq
    have h3 : q = "X" ∨ q = "Y" := by simpa [sXY] using hS q hq
    rcases h3 with rfl | rfl
    · exact h2 hq
    · exact h1 hq
  subst this
  have l1 := leaves_repeated (s := sXY) (t := rateData) rfl (child := "X") (c := 2) (K := []) (a := fun _ => 0) (x := 0) (by decide +kernel)
  have l2 := leaves_repeated (s := sXY) (t := rateData) rfl (child := "X") (c := 2) (K := ["Y"]) (a := fun _ => 0) (x := 0) (by decide +kernel)
  rw [show (given sXY rateData "X" 2 [] (fun _ => 0)).count 0 0 = 2 by decide +kernel,
    show (given sXY rateData "X" 2 [] (fun _ => 0)).time 0 = 4 by decide +kernel] at l1
  rw [show (given sXY rateData "X" 2 ["Y"] (fun _ => 0)).count 0 0 = 1 by decide +kernel,
    show (given sXY rateData "X" 2 ["Y"] (fun _ => 0)).time 0 = 1 by decide +kernel] at l2
  exact ⟨fun _ => 0, fun _ => by norm_num, 0, by norm_num, .inl ⟨_, _, by norm_num, by norm_num, by norm_num, l1, l2⟩⟩

/-- The hypotheses of C149 are met. -/
example : ∀ᶠ k in atTop, ∀ (m : List (List Bool)) (es : List Edge),
    ((⟨sXY, sXY.total, repeated rateData k, independenceTest tightParams⟩ : CBEnv).ctpcSequential ⟨[], m⟩).1 = .ok es → ("Y", "X") ∈ es := by
  filter_upwards [true_parents_eventually_found (P := tightParams) (ts := repeated rateData) rateData_run (tight_tightens 2) (p := "Y") (child := "X")
    (by decide) (by decide) (by decide) rateData_depends] with k hk m es h
  exact (hk m es).1 h

/-- The hypotheses of C147 and C148 are met. -/
example : ∃ (g : NetworkGraph) (u : List Nat), Reach sXY g ∧ (∀ k, DataOK sXY (repeated rateData k)) ∧
    [2].map Except.ok = (parentsOf g "X").map sXY.getStatesNumber ∧ ExactCards 2 [2] ∧ InRangeAssign [2] u ∧
    Tendsto (fun k => (residence sXY (repeated rateData k) "X" (parentsOf g "X") 0 u : ℝ)) atTop atTop := by
  refine ⟨(NetworkGraph.new sXY).addEdges [("Y", "X")], [0], .addEdges _ (.new ⟨sXY_wf, by decide⟩) (by decide), fun k => repeated_ok rateData_ok k, rfl,
    ⟨by simp, by intro p q rest h; cases h⟩, .cons (by norm_num) .nil, ?_⟩
  have h := (leaves_repeated (s := sXY) (t := rateData) rfl (child := "X") (c := 2) (K := ["Y"]) (a := fun _ => 0) (x := 0) (by decide +kernel)).time
  exact h

/-- `X` leaves state 0 at rate 1: for state 1 while `Y = 0`, for state 2 while `Y = 1`, and never for state 3. -/
def sXY4 : Structure := ⟨["X", "Y"], [0, 1], [4, 4], [], 2⟩
def targetData : Trajectory := ⟨[1, 1], [[0, 0, 1, 0], [0, 1, 2, 1]], 3⟩
theorem sXY4_wf : WFStructure sXY4 := ⟨by decide, rfl, rfl⟩
theorem targetData_ok : DataOK sXY4 targetData := dataOK_of_check _ _ sXY4_wf rfl rfl (by decide) (by decide) (by decide)

end Demo

open Demo

/-- C150 is false: of a variable whose next state is decided by its parent, some transition being impossible, the parent is not found, however many data. -/
theorem impossible_transition_hides_parent : ∃ (P : IndepParams) (s : Structure) (ts : ℕ → Trajectory) (m : List (List Bool)) (a : Label → Nat),
    SaneQuantiles P ∧ QuantilesTighten P 4 ∧ (∀ k, UniformRun ⟨s, s.total, ts k, independenceTest P⟩ P 4) ∧
    buildRemovable s s.total [] = .ok m ∧ (∀ q, a q < 4) ∧
    GoesToShare (fun k => given s (ts k) "X" 4 [] a) 0 1 (1 / 2) ∧ GoesToShare (fun k => given s (ts k) "X" 4 ["Y"] a) 0 1 1 ∧
    ∀ k, 0 < k → ∀ es, ((⟨s, s.total, ts k, independenceTest P⟩ : CBEnv).ctpcSequential ⟨[], m⟩).1 = .ok es → ("Y", "X") ∉ es := by
  have hcount : ∀ (K : List Label) (a : Label → Nat) (k x y : Nat), (given sXY4 (repeated targetData k) "X" 4 K a).count x y =
      k * (given sXY4 targetData "X" 4 K a).count x y := fun K a k x y => (given_repeated sXY4 targetData rfl k "X" 4 K a).1 x y
  have hrun : ∀ k, UniformRun ⟨sXY4, sXY4.total, repeated targetData k, independenceTest tightParams⟩ tightParams 4 := fun k =>
    uniformRun_of sXY4_wf (repeated_ok targetData_ok k) (by decide) (by norm_num) rfl (by decide)
  have hshare : ∀ (K : List Label) (n m : ℕ), 0 < n → (given sXY4 targetData "X" 4 K (fun _ => 0)).count 0 0 = n →
      (given sXY4 targetData "X" 4 K (fun _ => 0)).count 0 1 = m →
      GoesToShare (fun k => given sXY4 (repeated targetData k) "X" 4 K (fun _ => 0)) 0 1 ((m : ℝ) / n) := by
    intro K n m hn h1 h2
    have hn' : (0 : ℝ) < n := by exact_mod_cast hn
    constructor
    · have : Tendsto (fun k : ℕ => (k : ℝ) * (n : ℝ)) atTop atTop := tendsto_natCast_atTop_atTop.atTop_mul_const hn'
      refine this.congr (fun k => ?_)
      rw [hcount, h1]
      push_cast
      rfl
    · refine tendsto_const_nhds.congr' ?_
      filter_upwards [eventually_gt_atTop 0] with k hk
      rw [hcount, hcount, h1, h2]
      have : (0 : ℝ) < k := by exact_mod_cast hk
      push_cast
      field_simp
  refine ⟨tightParams, sXY4, repeated targetData, trues 2, fun _ => 0, tight_sane, tight_tightens 4, hrun, by decide +kernel, fun _ => by norm_num, ?_, ?_, ?_⟩
  · simpa using hshare [] 2 1 (by norm_num) (by decide +kernel) (by decide +kernel)
  · simpa using hshare ["Y"] 1 1 (by norm_num) (by decide +kernel) (by decide +kernel)
  · intro k hk es hes
    refine marginally_independent_dropped (E := ⟨sXY4, sXY4.total, repeated targetData k, independenceTest tightParams⟩) sXY4_wf (hrun k).indexes hes
      (by change "Y" ∈ sXY4.labels; decide) (by change "X" ∈ sXY4.labels; decide) (by decide) ⟨1, 0, rfl, rfl, rfl⟩
      (c := 4) rfl ?_
    rw [complete_test_accepts_iff (hrun k) ⟨sXY4_wf, by change "Y" ∈ sXY4.labels; decide, by change "X" ∈ sXY4.labels; decide, by simp, by decide, by simp, by simp⟩]
    intro a ha
    have e1 : given sXY4 (repeated targetData k) "X" 4 [] a = given sXY4 (repeated targetData k) "X" 4 [] (fun _ => 0) := rfl
    have e2 : given sXY4 (repeated targetData k) "X" 4 ["Y"] a = given sXY4 (repeated targetData k) "X" 4 ["Y"] (fun _ => a "Y") := rfl
    have hk' : (0 : ℝ) < k := by exact_mod_cast hk
    constructor
    · rintro ⟨-, h⟩
      unfold XR.div at h
      rw [if_neg (by norm_num)] at h
      have h' : _ < ((0 : ℚ) : ℝ) := h
      rw [Rat.cast_zero] at h'
      exact absurd h' (not_lt.2 (by positivity))
    rw [e1, e2]
    have hb := ha "Y"
    generalize a "Y" = b at hb
    have hempty : 2 ≤ b → ¬ ToldApart tightParams 4 (given sXY4 (repeated targetData k) "X" 4 [] (fun _ => 0))
        (given sXY4 (repeated targetData k) "X" 4 ["Y"] (fun _ => b)) := by
      intro h2
      apply not_told_apart_empty tight_sane
      intro x y
      rw [hcount]
      have hz : ∀ x y, transitions sXY4 targetData "X" (ordered sXY4 ["Y"]) x y ((ordered sXY4 ["Y"]).map (fun _ => b)) = 0 := by
        intro x y
        unfold transitions
        rw [List.length_eq_zero_iff, List.filter_eq_nil_iff]
        intro r hr h
        rw [Bool.and_eq_true] at h
        have h3 := h.1
        unfold rowMatches at h3
        rw [Bool.and_eq_true, decide_eq_true_eq, decide_eq_true_eq] at h3
        have h4 : [stateOf sXY4 r "Y"] = [some (b : ℤ)] := h3.2
        have hr' : r = [0, 0, 1, 0] ∨ r = [0, 1, 2, 1] := by simpa [targetData] using hr
        rcases hr' with rfl | rfl
        · have h5 : (some (0 : ℤ)) = some (b : ℤ) := (List.cons.inj h4).1
          have := Option.some.inj h5
          omega
        · have h5 : (some (1 : ℤ)) = some (b : ℤ) := (List.cons.inj h4).1
          have := Option.some.inj h5
          omega
      simp only [given, observed, hz, Finset.sum_const_zero, ite_self, Nat.mul_zero]
    by_cases hb2 : 2 ≤ b
    · exact hempty hb2
    have hexit : ∀ x, x < 4 → x ≠ 0 → (given sXY4 targetData "X" 4 [] (fun _ => 0)).count x x = 0 := by decide +kernel
    have hnever : ∀ K : List Label, (K = [] ∨ K = ["Y"]) → ∀ b, b < 2 → (given sXY4 targetData "X" 4 K (fun _ => b)).count 0 3 = 0 := by
      rintro K (rfl | rfl) <;> decide +kernel
    have hstat : ∀ b, b < 2 → (given sXY4 targetData "X" 4 ["Y"] (fun _ => b)).count 0 0 = 1 ∧
        (given sXY4 targetData "X" 4 ["Y"] (fun _ => b)).time 0 = 1 := by decide +kernel
    rintro ⟨x, hx, hF | ⟨hd, -⟩⟩
    · by_cases hx0 : x = 0
      · subst hx0
        unfold FOutside at hF
        rw [tight_lo, tight_hi] at hF
        have c1 : (given sXY4 (repeated targetData k) "X" 4 [] (fun _ => 0)).count 0 0 = k * 2 := by
          rw [hcount]; congr 1
        have c2 : (given sXY4 (repeated targetData k) "X" 4 ["Y"] (fun _ => b)).count 0 0 = k := by
          rw [hcount, (hstat b (by omega)).1, Nat.mul_one]
        have t1 : (given sXY4 (repeated targetData k) "X" 4 [] (fun _ => 0)).time 0 = k * 2 := by
          rw [(given_repeated sXY4 targetData rfl k "X" 4 [] _).2,
            show (given sXY4 targetData "X" 4 [] (fun _ => 0)).time 0 = 2 by decide +kernel]
        have t2 : (given sXY4 (repeated targetData k) "X" 4 ["Y"] (fun _ => b)).time 0 = k := by
          rw [(given_repeated sXY4 targetData rfl k "X" 4 ["Y"] _).2, (hstat b (by omega)).2, mul_one]
        have i1 : (((given sXY4 (repeated targetData k) "X" 4 [] (fun _ => 0)).intensity 0 0 : ℚ) : ℝ) = (-((k : ℝ) * 2) + 1) / ((k : ℝ) * 2 + 1) := by
          rw [Stats.intensity, if_pos rfl, c1, t1]; push_cast; rfl
        have i2 : (((given sXY4 (repeated targetData k) "X" 4 ["Y"] (fun _ => b)).intensity 0 0 : ℚ) : ℝ) = (-(k : ℝ) + 1) / ((k : ℝ) + 1) := by
          rw [Stats.intensity, if_pos rfl, c2, t2]; push_cast; rfl
        have hk1 : (1 : ℝ) ≤ k := by exact_mod_cast hk
        have hz : ¬ (((k * 2 : ℕ) : ℝ) = 0 ∨ ((k : ℕ) : ℝ) = 0) := by
          push_cast
          rintro (h | h) <;> linarith
        rw [i1, i2, c1, c2, if_neg hz, if_neg hz] at hF
        unfold XR.div at hF
        have hden : (-((k : ℝ) * 2) + 1) / ((k : ℝ) * 2 + 1) ≠ 0 := by
          apply div_ne_zero <;> linarith
        rw [if_neg hden] at hF
        have hratio : (-(k : ℝ) + 1) / ((k : ℝ) + 1) / ((-((k : ℝ) * 2) + 1) / ((k : ℝ) * 2 + 1)) = 1 - 2 * k / ((k + 1) * (2 * k - 1)) := by
          have h1 : (k : ℝ) + 1 ≠ 0 := by linarith
          have h2 : (k : ℝ) * 2 + 1 ≠ 0 := by linarith
          have h3 : 2 * (k : ℝ) - 1 ≠ 0 := by linarith
          have h4 : -((k : ℝ) * 2) + 1 ≠ 0 := by linarith
          rw [div_div_div_eq, eq_sub_iff_add_eq, div_add_div _ _ (mul_ne_zero h1 h4) (mul_ne_zero h1 h3), div_eq_one_iff_eq
            (mul_ne_zero (mul_ne_zero h1 h4) (mul_ne_zero h1 h3))]
          ring
        rw [hratio] at hF
        have hp : 0 < 2 * (k : ℝ) - 1 := by linarith
        have hq : 0 < 2 * (k : ℝ) / ((k + 1) * (2 * k - 1)) := by positivity
        have hlo : 2 * (k : ℝ) / ((k + 1) * (2 * k - 1)) ≤ 3 / (((k * 2 : ℕ) : ℝ) + k) := by
          push_cast
          rw [div_le_div_iff₀ (by positivity) (by positivity)]
          nlinarith
        have hhi : 0 < 3 / (((k * 2 : ℕ) : ℝ) + k) := by push_cast; positivity
        rcases hF with h | h
        · have h' : 1 - 2 * (k : ℝ) / ((k + 1) * (2 * k - 1)) < 1 - 3 / (((k * 2 : ℕ) : ℝ) + k) := h
          linarith
        · have h' : 1 + 3 / (((k * 2 : ℕ) : ℝ) + k) < 1 - 2 * (k : ℝ) / ((k + 1) * (2 * k - 1)) := h
          linarith
      · unfold FOutside at hF
        rw [tight_lo, tight_hi, if_pos (.inl (by rw [hcount, hexit x hx hx0]; simp)), if_pos (.inl (by rw [hcount, hexit x hx hx0]; simp))] at hF
        rcases hF with h | h
        · exact XR.not_lt_nan _ h
        · exact h
    · by_cases hx0 : x = 0
      · subst hx0
        have := (hd 3 (by norm_num) (by norm_num)).2.2
        rw [hcount, hcount, hnever [] (.inl rfl) 0 (by norm_num), hnever ["Y"] (.inr rfl) b (by omega)] at this
        simp at this
      · have := (hd 0 (by norm_num) (fun h => hx0 h.symm)).1
        rw [hcount, hexit x hx hx0] at this
        simp at this

end PyCTBN
