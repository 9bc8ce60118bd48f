import Verif.Props.ManyLong
import Verif.Props.ScoreConsistency

/-!
# Data sets enlarged by `multi_trajectory` with equal limits: C209
-/

open MeasureTheory ProbabilityTheory Filter
open scoped ENNReal Topology

namespace PyCTBN
open Spec

noncomputable section

/-- **C209** (what is returned).  Workers that start with the same random state and equal limits return copies of the one trajectory that the sequential sampler returns from this
state: for `k` equal `max_tr`, and for `k` equal `t_end`, in whatever order they finish. -/
theorem forked_copies {net : SampleNet} {d : SampleDraws} {rows : RawTraj} {k : Nat} {order : List Nat} (hord : order.Perm (List.range k)) :
    (∀ {m : ℤ}, Samples net (-1) m d rows → ∃ fuel, net.multi none (some (List.replicate k m)) (fun _ => d) order fuel = .ok (some (List.replicate k rows))) ∧
    (∀ {T : ℚ}, Samples net T (-1) d rows → ∃ fuel, net.multi (some (List.replicate k T)) none (fun _ => d) order fuel = .ok (some (List.replicate k rows))) := by
  have key : ∀ {tEnds : Option (List ℚ)} {maxTrs : Option (List ℤ)} {q : ℚ × ℤ}, SampleNet.requests tEnds maxTrs = some (List.replicate k q) → Samples net q.1 q.2 d rows →
      ∃ fuel, net.multi tEnds maxTrs (fun _ => d) order fuel = .ok (some (List.replicate k rows)) := by
    intro tEnds maxTrs q hq hs
    obtain ⟨fuel, out, h1, h2, -⟩ := multi_one_per_request (draws := fun _ => d) (order := order) hq (results := List.replicate k rows) (by
      rw [List.forall₂_iff_get]
      refine ⟨by simp, fun i h1 h2 => ?_⟩
      simp only [List.get_eq_getElem, List.getElem_zipIdx, List.getElem_replicate]
      exact hs) (by rw [List.length_replicate]; exact hord)
    exact ⟨fuel, by rw [h1, List.perm_replicate.1 h2]⟩
  exact ⟨fun hs => key (q := (-1, _)) (by simp [SampleNet.requests]) hs, fun hs => key (q := (_, -1)) (by simp [SampleNet.requests]) hs⟩

theorem rawResidence_copies (vars : List Label) (v : Label) (L : List Label) (x : Nat) (u : List Nat) (rows : RawTraj) (k : Nat) :
    rawResidence vars (List.replicate k rows) v L x u = k * rawResidence vars [rows] v L x u := by
  rw [rawResidence_many, List.map_replicate, List.sum_replicate, nsmul_eq_mul]

theorem rawTransitions_copies (vars : List Label) (v : Label) (L : List Label) (x y : Nat) (u : List Nat) (rows : RawTraj) (k : Nat) :
    rawTransitions vars (List.replicate k rows) v L x y u = k * rawTransitions vars [rows] v L x y u := by
  rw [rawTransitions_many, List.map_replicate, List.sum_replicate, nsmul_eq_mul, Nat.cast_id]

/-- **C209** (estimates).  The more copies, the closer the estimate to the raw frequency in the one trajectory. -/
theorem forked_estimates (vars : List Label) (v : Label) (L : List Label) (x y : Nat) (u : List Nat) {rows : RawTraj} (hpos : 0 < rawResidence vars [rows] v L x u) :
    Tendsto (fun k : ℕ => ((rawTransitions vars (List.replicate k rows) v L x y u : ℝ) + 1) / ((rawResidence vars (List.replicate k rows) v L x u : ℝ) + 1)) atTop
      (𝓝 ((rawTransitions vars [rows] v L x y u : ℝ) / (rawResidence vars [rows] v L x u : ℝ))) := by
  refine ratio_limit (by exact_mod_cast hpos) ?_ ?_
  · refine tendsto_const_nhds.congr' ?_
    filter_upwards [eventually_gt_atTop 0] with k hk
    have hk' : (k : ℝ) ≠ 0 := by exact_mod_cast hk.ne'
    rw [rawTransitions_copies]
    push_cast
    field_simp
  · refine tendsto_const_nhds.congr' ?_
    filter_upwards [eventually_gt_atTop 0] with k hk
    have hk' : (k : ℝ) ≠ 0 := by exact_mod_cast hk.ne'
    rw [rawResidence_copies]
    push_cast
    field_simp

theorem built_copies (vars : List Label) (rows : RawTraj) (k : Nat) : builtTraj vars (List.replicate k rows) = repeated (builtTraj vars [rows]) k := by
  have hf : ∀ {α : Type} (f : RawTraj → List α) (k : Nat), (List.replicate k rows).flatMap f = (List.replicate k (([rows] : List RawTraj).flatMap f)).flatten := by
    intro α f k
    induction k with
    | zero => rfl
    | succ k ih => rw [List.replicate_succ, List.flatMap_cons, ih, List.replicate_succ, List.flatten_cons, List.flatMap_cons, List.flatMap_nil, List.append_nil]
  unfold builtTraj repeated
  congr 1
  · exact hf _ k
  · exact hf _ k

/-- **C209** (structure).  Once the copies are many enough, importing them works, and whatever network tabu search returns explains the chance behaviour of the one trajectory: a variable
that is not a parent of `n` does not matter to `n` in it beyond its parents; a parent that was not prior knowledge matters in it beyond the others, or does not vary in it beyond them. -/
theorem forked_network_explains {N : Ctbn} (hOK : N.OK) (hcl : NoSuffixClash N.vars) (hT : "Time" ∉ N.vars) {c : Nat} (hc2 : 2 ≤ c) (hcard : ∀ v ∈ N.vars, N.card v = c)
    {rows : RawTraj} (hu : UsableRows N rows) (hpos : ∀ d ∈ durations [rows], 0 < d) (es₀ : List Edge) {τ α : ℝ} (hτ : 0 < τ) (hα : 0 < α) {R : List (List Bool)} {known : List Edge}
    (hR : buildRemovable (builtStruct N.vars (N.vars.map N.card) es₀) N.vars.length known = .ok R) (hknown : ∀ e ∈ known, e.1 ≠ e.2) {a : SBArgs}
    (hopt : a.optimizer = "tabu") (hmp : a.maxParents = none) (htl : ∀ k, a.tabuLength = some k → (N.vars.length : ℤ) - 1 ≤ k)
    (htd : ∀ k, a.tabuDuration = some k → (N.vars.length : ℤ) - 1 ≤ |k|) (hpat : ∀ m, a.patience = some m → (N.vars.length : ℤ) - 1 ≤ m + 1)
    (hit : (N.vars.length - 1) * 2 ^ (N.vars.length - 1) ≤ a.iterations) :
    ∃ k₀, ∀ k, k₀ ≤ k → ∃ (p : SamplePath) (s : Structure) (t : Trajectory),
      buildFromRaw ((List.replicate k rows).map (SampleNet.frame N.vars)) ⟨List.range N.vars.length, N.vars, N.vars.map N.card⟩ es₀ = .ok p ∧
      p.struct = some s ∧ p.trajectories = some t ∧
      ∀ (complete : DiGraph) (order : Option (List Label)) (pick drop : Label → Nat → Nat) (es : Finset Edge) (rep : Option (ℚ × ℚ)) (e' : Estimator),
        (∀ o, order = some o → o.Perm N.vars) → estimateStructure (famScoreOn t τ α) R ⟨s, complete⟩ a order pick drop = (.ok (es, rep), e') →
        ∀ n ∈ N.vars, ∀ p ∈ N.vars, p ≠ n → (p, n) ∉ known → ∀ K : List Label, (∀ q, q ∈ K ↔ (q, n) ∈ es ∧ q ≠ p) →
          ((p, n) ∉ es → ¬ Matters s (builtTraj N.vars [rows]) n c K p) ∧
          ((p, n) ∈ es → Matters s (builtTraj N.vars [rows]) n c K p ∨ ¬ Varies s (builtTraj N.vars [rows]) n c K p) := by
  obtain ⟨-, hdata, -⟩ := usable_builds hOK hcl hT hcard (usableData_single hu) es₀
  obtain ⟨k₀, hk₀⟩ := estimated_network_explains (s := builtStruct N.vars (N.vars.map N.card) es₀) hdata hpos hc2 hτ hα (R := R) (known := known) ⟨rfl, hR, hknown⟩ hopt hmp htl htd hpat hit
  refine ⟨max k₀ 1, fun k hk => ?_⟩
  obtain ⟨⟨p, p1, p2, p3⟩, -, -⟩ := usable_builds hOK hcl hT hcard (raws := List.replicate k rows)
    ⟨by have := le_of_max_le_right hk; intro h; rw [List.replicate_eq_nil_iff] at h; omega, fun r hr => by rw [List.eq_of_mem_replicate hr]; exact hu⟩ es₀
  refine ⟨p, _, _, p1, p2, p3, fun complete order pick drop es rep e' ho h => ?_⟩
  rw [built_copies] at h
  exact hk₀ k (le_of_max_le_left hk) complete order pick drop es rep e' ho h

/-! ## Non-vacuity -/

namespace Demo

/-- `X` and `Y`, two states each, that do not depend on each other. -/
def loneCtbn : Ctbn where
  vars := ["X", "Y"]
  card := fun _ => 2
  parents := fun _ => []
  cim := fun _ _ => pairCim 0

def loneNet : SampleNet := SampleNet.new ["X", "Y"] [] [("X", pX), ("Y", { pX with nodeId := "Y" })]

def loneDraws : SampleDraws := ⟨fun n i => if n = 0 ∧ i = 0 then 3 else if n = 1 then 9 else 1, fun _ => 0⟩

/-- `Y` moves after 1, `X` after 3. -/
def loneRows : RawTraj := [(0, [0, 0]), (1, [0, 1]), (3, [1, 1]), (4, [-1, -1])]

theorem lone_samples : Samples loneNet (-1) 3 loneDraws loneRows := ⟨10, by decide +kernel⟩

theorem lone_ok : loneCtbn.OK where
  nodup := by decide
  nonempty := by simp [loneCtbn]
  closed := by decide
  pos := by decide
  cims := fun _ _ _ _ => (matrixOK_of (by decide +kernel) : Ctbn.MatrixOK 2 (pairCim 0))

theorem lone_usable : UsableRows loneCtbn loneRows where
  two := by decide
  width := by decide
  range := by
    intro raw hraw p hp i c hc
    rw [List.mem_singleton] at hraw
    subst hraw
    have hc' : i < 2 ∧ c = 2 := by
      have h := List.getElem?_eq_some_iff.1 hc
      obtain ⟨h1, h2⟩ := h
      have h1 : i < 2 := by simpa [loneCtbn] using h1
      refine ⟨h1, ?_⟩
      rw [← h2, List.getElem_map]; rfl
    obtain ⟨hi, rfl⟩ := hc'
    have key : ∀ p ∈ consecutive loneRows, ∀ i < 2, (∃ x < 2, p.1.2[i]? = some ((x : ℕ) : ℤ)) ∧ (p.2.2[i]? = some (-1) ∨ ∃ x < 2, p.2.2[i]? = some ((x : ℕ) : ℤ)) := by decide +kernel
    obtain ⟨⟨x, a, b⟩, h⟩ := key p hp i hi
    refine ⟨⟨x, b, a⟩, h.imp id (fun ⟨x, a, b⟩ => ⟨x, b, a⟩)⟩
  times := by decide +kernel

theorem lone_matters : Matters (builtStruct ["X", "Y"] [2, 2] []) (builtTraj ["X", "Y"] [loneRows]) "X" 2 [] "Y" :=
  ⟨fun _ => 0, fun _ => by norm_num, 0, 1, 0, 1, by decide +kernel, by decide +kernel, by decide +kernel, by decide +kernel, by decide +kernel,
    by decide +kernel, by decide +kernel, by decide +kernel⟩

/-- C209: the network has no edges, but with enough copies of `loneRows`, which is what equal limits return, the network estimated always has the edge from `Y` to `X`. -/
example : loneCtbn.edges = ∅ ∧ ∃ k₀, ∀ k, k₀ ≤ k →
    (∀ order : List Nat, order.Perm (List.range k) → ∃ fuel, loneNet.multi none (some (List.replicate k 3)) (fun _ => loneDraws) order fuel = .ok (some (List.replicate k loneRows))) ∧
    ∃ (p : SamplePath) (s : Structure) (t : Trajectory), buildFromRaw ((List.replicate k loneRows).map (SampleNet.frame ["X", "Y"])) ⟨[0, 1], ["X", "Y"], [2, 2]⟩ [] = .ok p ∧
      p.struct = some s ∧ p.trajectories = some t ∧ ∀ pick drop, ∃ es rep e',
      estimateStructure (famScoreOn t 1 1) [[true, true], [true, true]] (Estimator.new s) defaultArgs none pick drop = (.ok (es, rep), e') ∧ ("Y", "X") ∈ es := by
  refine ⟨by decide, ?_⟩
  obtain ⟨k₀, h⟩ := forked_network_explains lone_ok (by unfold NoSuffixClash; decide) (by decide) (le_refl 2) (fun _ _ => rfl) lone_usable (by decide +kernel) []
    (τ := 1) (α := 1) one_pos one_pos (R := [[true, true], [true, true]]) (known := []) rfl (by simp) (a := defaultArgs) rfl rfl (by simp [defaultArgs]) (by simp [defaultArgs])
    (by simp [defaultArgs]) (by decide)
  refine ⟨max k₀ 1, fun k hk => ⟨fun order ho => (forked_copies ho).1 lone_samples, ?_⟩⟩
  obtain ⟨p, s, t, h1, h2, h3, h4⟩ := h k (le_of_max_le_left hk)
  refine ⟨p, s, t, h1, h2, h3, fun pick drop => ?_⟩
  obtain ⟨⟨p', p1, p2, p3⟩, hdata, -⟩ := usable_builds lone_ok (by unfold NoSuffixClash; decide) (by decide) (c := 2) (fun _ _ => rfl) (raws := List.replicate k loneRows)
    ⟨by have := le_of_max_le_right hk; intro h; rw [List.replicate_eq_nil_iff] at h; omega, fun r hr => by rw [List.eq_of_mem_replicate hr]; exact lone_usable⟩ []
  rw [p1, Except.ok.injEq] at h1
  subst h1
  rw [p2, Option.some.injEq] at h2
  rw [p3, Option.some.injEq] at h3
  subst h2 h3
  obtain ⟨es, rep, e', hr, -⟩ := score_based_returns_partial (a := defaultArgs) (order := none) (known := []) hdata (le_refl 2) (one_pos (α := ℝ)) (one_pos (α := ℝ))
    (R := [[true, true], [true, true]]) ⟨rfl, rfl, by simp⟩ ⟨by simp [defaultArgs], by simp [defaultArgs], by simp [defaultArgs]⟩ (candidates_built (by decide) _ _ _ _) _ (by simp) pick drop
  refine ⟨es, rep, e', hr, ?_⟩
  by_contra hout
  refine (h4 _ none pick drop es rep e' (by simp) hr "X" (by decide) "Y" (by decide) (by decide) (by simp) [] (fun q => ?_)).1 hout lone_matters
  simp only [List.not_mem_nil, false_iff, not_and, not_not]
  intro hq
  have := (estimate_well_formed (known := []) ⟨hdata.wf.1, hdata.wf.2, hdata.wf.3⟩ ⟨rfl, rfl, by simp⟩ (by simp) hr).1 _ hq
  have hl : q ∈ (["X", "Y"] : List Label) := this.1
  have : q ≠ "X" := this.2.2
  simp only [List.mem_cons, List.not_mem_nil, or_false] at hl
  tauto

/-- C209: its estimate of the intensity of `X`'s move, given `Y` in 1, tends to 1/2. -/
example : Tendsto (fun k : ℕ => ((rawTransitions ["X", "Y"] (List.replicate k loneRows) "X" ["Y"] 0 1 [1] : ℝ) + 1) / ((rawResidence ["X", "Y"] (List.replicate k loneRows) "X" ["Y"] 0 [1] : ℝ) + 1))
    atTop (𝓝 (1 / 2)) := by
  have h := forked_estimates ["X", "Y"] "X" ["Y"] 0 1 [1] (rows := loneRows) (by decide +kernel)
  rw [show rawTransitions ["X", "Y"] [loneRows] "X" ["Y"] 0 1 [1] = 1 by decide +kernel, show rawResidence ["X", "Y"] [loneRows] "X" ["Y"] 0 [1] = 2 by decide +kernel] at h
  push_cast at h
  exact h

end Demo

end

end PyCTBN
