import Verif.Props.Json
import Verif.Props.SampleEnd
import Verif.Props.CtpcReturns
import Verif.Props.ScoreEst

/-!
# The whole workflow: generate, sample, write, read, estimate (C96)
-/

namespace PyCTBN
open Spec Indep

/-- The durations of consecutive rows of trajectories with ordered times are not negative. -/
theorem durations_nonneg {samples : List RawTraj} (h : ∀ rows ∈ samples, (rows.map Prod.fst).Pairwise (· ≤ ·)) : ∀ d ∈ durations samples, 0 ≤ d := by
  have key : ∀ rows : RawTraj, (rows.map Prod.fst).Pairwise (· ≤ ·) → ∀ p ∈ consecutive rows, p.1.1 ≤ p.2.1 := by
    intro rows
    induction rows with
    | nil => intro _ p hp; simp [consecutive] at hp
    | cons a rows ih =>
      intro hp p hm
      cases rows with
      | nil => simp [consecutive] at hm
      | cons b rows =>
        rw [List.map_cons, List.pairwise_cons] at hp
        simp only [consecutive, List.tail_cons, List.zip_cons_cons, List.mem_cons] at hm
        rcases hm with rfl | hm
        · exact hp.1 _ (by simp)
        · exact ih hp.2 p hm
  intro d hd
  unfold durations at hd
  obtain ⟨rows, hr, hd⟩ := List.mem_flatMap.1 hd
  obtain ⟨p, hp, rfl⟩ := List.mem_map.1 hd
  have := key rows (h rows hr) p hp
  linarith

/-- **C96.**  The documented workflow, when all variables have equally many (at least two) states: a network over at least two clash-free names is
generated, trajectories are sampled from it (one per requested number of transitions, in parallel, whatever the random numbers and the order of
completion), written to a file and read back.  Every step returns; the parameters estimated for every node of the generated graph are those of the
sampled rows; and both structure estimators return, for every choice of their parameters. -/
theorem workflow {labels : List Label} (hnd : labels.Nodup) (h2 : 2 ≤ labels.length) (hcl : NoSuffixClash labels) (hT : "Time" ∉ labels)
    {c : Nat} (hc : 2 ≤ c) {ng₁ : NetGen}
    (hgen : (∃ d shuffle, (∀ l : List Edge, (shuffle l).Perm l) ∧
        (NetGen.new labels (labels.map (fun _ => c))).generateGraphFixed d shuffle = .ok ng₁) ∨
      ∃ d coin, (NetGen.new labels (labels.map (fun _ => c))).generateGraph d coin = .ok ng₁)
    {lo hi : ℚ} (hlo : (c + 1 : ℚ) * (5 / 100000) < lo) (hle : lo ≤ hi) {cd : NetGen.CimDraws} (hcd : UnitDraws cd) (hcd' : PositiveDraws cd)
    (ms : List Nat) (hms : ∃ m ∈ ms, 1 ≤ m) (draws : Nat → SampleDraws) (hexp : ∀ w n i, 0 ≤ (draws w).exp n i)
    {order : List Nat} (hord : order.Perm (List.range ms.length)) {enc : ℚ → ℚ} (henc : ∀ q, FourDecimals q → enc q = q) :
    ∃ ng₂ table cims fuel samples file p s t,
      ng₁.generateCims lo hi cd = .ok ng₂ ∧ ng₂.dynStr = .ok table ∧ ng₂.cims = some cims ∧
      (SampleNet.new ng₂.labels table cims).multi none (some (ms.map (fun m : Nat => (m : ℤ)))) draws order fuel = .ok (some samples) ∧
      (exporterOf ng₂.labels (labels.map (fun _ => c)) table cims (samples.map (SampleNet.frame labels))).outFile enc = .ok file ∧
      buildFromFile (exportKeys (some "dyn.cims")) file 0 = .ok p ∧ p.struct = some s ∧ p.trajectories = some t ∧
      s.labels = labels ∧ s.edges = table ∧
      -- parameters
      (∀ n ∈ labels, ∃ sofc, ParamsEst.estimate t (NetworkGraph.new s) n = .ok sofc ∧
        (∀ u, u ∈ sofc.pCombs ↔ InRangeAssign ((parentsOf (NetworkGraph.new s) n).map (fun _ => c)) u) ∧
        ∀ (r : Nat) (u : List Nat), sofc.pCombs[r]? = some u → ∃ cim : Cim, sofc.cims[r]? = some cim ∧
          (∀ x, x < c → cim.resTimes[x]? = some (rawResidence labels samples n (parentsOf (NetworkGraph.new s) n) x u)) ∧
          ∀ x x', x < c → x' < c → x ≠ x' →
            entry2 cim.trans x x' = some (rawTransitions labels samples n (parentsOf (NetworkGraph.new s) n) x x' u)) ∧
      -- structure, constraint-based
      (∀ (P : IndepParams) (R : List (List Bool)), buildRemovable s.cleanEdges labels.length [] = .ok R →
        ∃ es, (CBEnv.ctpcSequential ⟨s.cleanEdges, labels.length, t, independenceTest P⟩ ⟨[], R⟩).1 = .ok es ∧
          ∀ o : List Label, o.Perm labels → (CBEnv.ctpcParallel ⟨s.cleanEdges, labels.length, t, independenceTest P⟩ ⟨[], R⟩ o).1 = .ok es) ∧
      -- structure, score-based
      (∀ (tau alpha : ℝ), 0 < tau → 0 < alpha → ∀ (R : List (List Bool)), buildRemovable s.cleanEdges labels.length [] = .ok R →
        ∀ a : SBArgs, SaneArgs a → ∀ (complete : DiGraph) (o : Option (List Label)), (∀ l, o = some l → l.Perm labels) →
        ∀ pick drop : Label → Nat → Nat, ∃ es rep e', estimateStructure (famScoreOn t tau alpha) R ⟨s, complete⟩ a o pick drop = (.ok (es, rep), e')) := by
  obtain ⟨g1, g2, es, g3, g4⟩ := generated_graph_form hgen
  have e1 : ng₁.labels = labels := g1
  have e2 : ng₁.vals = labels.map (fun _ => c) := g2
  have hne : labels ≠ [] := by rintro rfl; simp at h2
  have hes : ∀ e ∈ es, e.1 ∈ ng₁.labels ∧ e.2 ∈ ng₁.labels := fun e he => ⟨(g3 e he).1, (g3 e he).2.1⟩
  have hlen : ng₁.vals.length = ng₁.labels.length := by rw [e1, e2]; simp
  obtain ⟨ng₂, hng⟩ := generate_cims_returns (by rw [e1]; exact hnd) hlen hes g4 (lo := lo) (hi := hi) hcd'
  have hcardOf : ∀ v ∈ labels, cardOf ng₁.labels ng₁.vals v = c := by
    intro v hv
    unfold cardOf
    rw [e1, e2, List.getElem?_map, List.getElem?_idxOf hv]; rfl
  obtain ⟨N, table, cims, k1, k2, hD, hOK, k3, k4, k5⟩ := generated_network_usable (by rw [e1]; exact hne) (by rw [e1]; exact hnd) hlen hes g4 hle hcd hng
    (by
      rw [e2]
      intro x hx
      obtain ⟨l, -, rfl⟩ := List.mem_map.1 hx
      exact ⟨hc, hlo⟩)
    (by
      intro v hv p q rest h
      have hm : ∀ x ∈ p :: q :: rest, x = c := by
        rw [← h]
        intro x hx
        obtain ⟨l, hl, rfl⟩ := List.mem_map.1 hx
        exact hcardOf l (e1 ▸ (List.mem_filter.1 hl).1)
      rw [hm p (by simp), hm q (by simp)])
  have hvars : N.vars = labels := k3.trans e1
  have hcards : N.vars.map N.card = labels.map (fun _ => c) := by
    rw [hvars]
    exact List.map_congr_left (fun v hv => (k4 v).trans (hcardOf v hv))
  have hlab : ng₂.labels = labels := by rw [← hvars]; exact hD.vnames
  obtain ⟨fuel, samples, m1, m2, m3⟩ := multi_max_trs hD hOK ms draws hord
  -- every trajectory is a sample of one of the requests
  have hidx : ∀ rows ∈ samples, ∃ (w m : Nat), ms[w]? = some m ∧ Samples (SampleNet.new ng₂.labels table cims) (-1) (m : ℤ) (draws w) rows := by
    intro rows hr
    obtain ⟨j, hj⟩ := List.mem_iff_getElem?.1 hr
    have hjl : j < samples.length := (List.getElem?_eq_some_iff.1 hj).1
    have hjo : j < order.length := by rw [hord.length_eq, List.length_range, ← m2]; exact hjl
    have hwm : order[j] ∈ List.range ms.length := hord.subset (List.getElem_mem hjo)
    have hwl := List.mem_range.1 hwm
    obtain ⟨rows', r1, r2, -⟩ := m3 j order[j] ms[order[j]] (List.getElem?_eq_getElem hjo) (List.getElem?_eq_getElem hwl)
    rw [hj] at r1
    cases r1
    exact ⟨_, _, List.getElem?_eq_getElem hwl, r2⟩
  have hs : ∀ rows ∈ samples, ∃ tEnd maxTr draws, Samples (SampleNet.new ng₂.labels table cims) tEnd maxTr draws rows := by
    intro rows hr
    obtain ⟨w, m, -, h⟩ := hidx rows hr
    exact ⟨_, _, _, h⟩
  have hdata : ∃ rows ∈ samples, 2 ≤ rows.length := by
    obtain ⟨m, hm, h1⟩ := hms
    obtain ⟨w, hw⟩ := List.mem_iff_getElem?.1 hm
    have hwl : w < ms.length := (List.getElem?_eq_some_iff.1 hw).1
    obtain ⟨j, hj⟩ := List.mem_iff_getElem?.1 (hord.symm.subset (List.mem_range.2 hwl))
    obtain ⟨rows, r1, -, r3⟩ := m3 j w m hj hw
    exact ⟨rows, List.mem_of_getElem? r1, by omega⟩
  obtain ⟨json, file, -, f1, f2, -⟩ := exported_file_reads_back hD hOK (by rw [hvars]; exact hT) hs henc
  obtain ⟨p, b1, b2, b3, b4⟩ := sampled_builds_data hD hOK (by rw [hvars]; exact hcl) (by rw [hvars]; exact hT) hs hdata table
  obtain ⟨p', s', t', c1, c2, c3, -, -, c6⟩ := sampled_trajectories_estimable_partial hD hOK (by rw [hvars]; exact hcl) (by rw [hvars]; exact hT) hs
    hdata table
  rw [b1] at c1; cases c1
  rw [b2] at c2; cases c2
  rw [b3] at c3; cases c3
  rw [hcards] at f1 b2 b4 c6
  rw [hvars] at f1 b2 b3 b4 c6
  set s := builtStruct labels (labels.map (fun _ => c)) table with hsdef
  set t := builtTraj labels samples with htdef
  have hst : ∀ l ∈ labels, s.getStatesNumber l = .ok c := by
    intro l hl
    unfold Structure.getStatesNumber
    rw [hsdef]
    unfold builtStruct
    dsimp only
    rw [pyIndex_of_mem hl]
    exact pyGet_ok.2 (by rw [List.getElem?_map, List.getElem?_idxOf hl]; rfl)
  have hwf : WFStructure s := ⟨hnd, by simp [hsdef, builtStruct], by simp [hsdef, builtStruct]⟩
  have htable : ∀ e ∈ table, e.1 ∈ labels ∧ e.2 ∈ labels := by
    intro e he
    obtain ⟨L, -, q2, -⟩ := generate_cims_spec (by rw [e1]; exact hnd) hlen hes g4 hng
    obtain ⟨hI, hk, hee, -⟩ := genGraph_spec (by rw [e1]; exact hnd) hlen hes
    unfold NetGen.dynStr at k1
    rw [q2, g4] at k1
    simp only [Except.ok.injEq] at k1
    rw [← k1] at he
    have hmem : e ∈ (genGraph ng₁.labels ng₁.vals es).graph.edges := by
      unfold NetworkGraph.edges DiGraph.edgesView at he
      simp only [List.mem_flatMap, List.mem_filter] at he
      obtain ⟨_, _, hx, _⟩ := he
      exact hx
    rw [← e1]
    exact hes e ((hee e).1 hmem)
  have hreach : Reach s (NetworkGraph.new s) := .new ⟨hwf, htable⟩
  have hwf' : WFStructure s.cleanEdges := ⟨hwf.1, hwf.2, hwf.3⟩
  have hd' : DataOK s.cleanEdges t := ⟨b4.origCols, b4.len, b4.width, b4.idx_lt, b4.cur, b4.nxt⟩
  have hvals : ∀ v ∈ s.cleanEdges.vals, v = c := by
    intro v hv
    obtain ⟨l, -, rfl⟩ := List.mem_map.1 (show v ∈ labels.map (fun _ => c) from hv)
    rfl
  refine ⟨ng₂, table, cims, fuel, samples, file, p, s, t, hng, k1, k2, m1, f1, ?_, b2, b3, rfl, rfl, ?_, ?_, ?_⟩
  · rw [hcards, hvars] at b1 f2
    exact (buildFromFile_eq f2).trans b1
  · intro n hn
    have hpar : ∀ x ∈ parentsOf (NetworkGraph.new s) n, x ∈ labels := by
      intro x hx
      have := mem_parentsOf hx
      rw [hreach.inv.2] at this; exact this
    obtain ⟨sofc, q1, -, q3, q4⟩ := c6 (NetworkGraph.new s) hreach n hn c ((parentsOf (NetworkGraph.new s) n).map (fun _ => c)) (hst n hn) (by
        rw [List.map_map]
        exact List.map_congr_left (fun l hl => (hst l (hpar l hl)).symm)) ⟨by
        intro x hx
        obtain ⟨l, -, rfl⟩ := List.mem_map.1 hx
        exact .inr rfl, by
        intro x y rest h
        have hm : ∀ z ∈ x :: y :: rest, z = c := by
          rw [← h]; intro z hz; obtain ⟨l, -, rfl⟩ := List.mem_map.1 hz; rfl
        rw [hm x (by simp), hm y (by simp)]⟩
    exact ⟨sofc, q1, q3, q4⟩
  · intro P R hR
    obtain ⟨es', h1, h2', -⟩ := constraint_based_returns_partial (E := ⟨s.cleanEdges, labels.length, t, independenceTest P⟩) (P := P) rfl hwf'
      (List.nodup_range) rfl hd' (c := c) (by omega) hvals (known := []) hR
    exact ⟨es', h1, h2'⟩
  · intro tau alpha hτ hα R hR a ha complete o ho pick drop
    obtain ⟨es', rep, e', h, -⟩ := score_based_returns_partial (s := s) (t := t) (c := c)
      ⟨hwf', hd', hvals, durations_nonneg (fun rows hr => by
        obtain ⟨w, m, -, h⟩ := hidx rows hr
        exact (sample_times_ordered hD hOK (hexp w) h).2.1)⟩ hc hτ hα (R := R) (known := []) ⟨rfl, hR, by simp⟩ ha (by
        intro n hn
        unfold candidates
        obtain ⟨x, hx, hxn⟩ : ∃ x ∈ labels, x ≠ n := by
          by_contra hno
          push Not at hno
          match labels, h2, hnd, hno with
          | a :: b :: rest, _, hnd, hno =>
            have h1 := hno a (by simp)
            have h2 := hno b (by simp)
            rw [List.nodup_cons] at hnd
            exact hnd.1 (by rw [h1, ← h2]; simp)
        refine ⟨x, Finset.mem_sdiff.2 ⟨Finset.mem_erase.2 ⟨hxn, List.mem_toFinset.2 hx⟩, ?_⟩⟩
        simp [parentsIn]) complete ho pick drop
    exact ⟨es', rep, e', h⟩

/-- The hypotheses are met: two binary variables, every edge present, two trajectories of 3 and 5 transitions, completed in the other order. -/
example : ∃ ng₁, (NetGen.new ["X", "Y"] (["X", "Y"].map (fun _ => 2))).generateGraph (.float 1) (fun _ _ => false) = .ok ng₁ ∧
    ng₁.dynStr = .ok [("X", "Y"), ("Y", "X")] ∧ ["X", "Y"].Nodup ∧ NoSuffixClash ["X", "Y"] ∧ "Time" ∉ ["X", "Y"] ∧
    ((2 : Nat) + 1 : ℚ) * (5 / 100000) < 1 ∧ UnitDraws ⟨fun _ _ _ => 1/2, fun _ _ _ _ => 1/2⟩ ∧ PositiveDraws ⟨fun _ _ _ => 1/2, fun _ _ _ _ => 1/2⟩ ∧
    (∃ m ∈ [3, 5], 1 ≤ m) ∧ [1, 0].Perm (List.range [3, 5].length) ∧ ∀ q : ℚ, FourDecimals q → id q = q :=
  ⟨_, rfl, by decide +kernel, by decide, by unfold NoSuffixClash; decide, by decide, by norm_num,
    ⟨fun _ _ _ => by norm_num, fun _ _ _ _ => by norm_num⟩, fun _ _ _ _ => by norm_num, ⟨3, by simp, by omega⟩,
    .swap 0 1 [], fun _ _ => rfl⟩

end PyCTBN
