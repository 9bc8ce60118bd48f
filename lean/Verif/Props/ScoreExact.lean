import Verif.Props.ScoreEst
import Verif.Props.CtpcExact
import Verif.Props.SearchExact

/-! # When score-based estimation returns (C105) -/

namespace PyCTBN
open Spec SearchEnv

/-! ## Scores that cannot be computed -/

/-- Without its initial score no search returns. -/
theorem search_raises_start {S : Type} [LinearOrder S] {E : SearchEnv S} (hE : SearchReady E) (hK : KnownEdges E []) {n : Label}
    (hn : n ∈ E.struct.labels) (hbad : ∀ g, SGraph E.struct n [] g → ∃ e, E.scoreGraph n g = .error e) (a : SBArgs) (pick drop : Nat → Nat) :
    ∃ e, estimateParents E a pick drop n = .error e := by
  obtain ⟨j, -, hj⟩ := getNodeIndx_mem hE.wf hn
  obtain ⟨prior, h1, -, h3⟩ := priorParents_spec hE hK hj
  have hp : prior = [] := List.eq_nil_iff_forall_not_mem.2 (fun p hp => by simpa using (h3 p).1 hp)
  subst hp
  obtain ⟨e, he⟩ := hbad _ (initGraph_spec [] hE hn (by simp))
  refine ⟨e, ?_⟩
  unfold estimateParents tabu hill
  split <;> simp [hj, h1, he]

/-- If the score of `n` with the single parent `b` cannot be computed, some first draw makes the search raise. -/
theorem search_raises_parent {S : Type} [LinearOrder S] {E : SearchEnv S} (hE : SearchReady E) (hK : KnownEdges E []) {n b : Label}
    (hn : n ∈ E.struct.labels) (hb : b ∈ E.struct.labels) (hbn : b ≠ n)
    (hbad : ∀ g, SGraph E.struct n [b] g → ∃ e, E.scoreGraph n g = .error e) {a : SBArgs} (ha : SaneArgs a) (hi : 1 ≤ a.iterations) :
    ∃ r, ∀ drop, ∃ e, estimateParents E a (fun _ => r) drop n = .error e := by
  obtain ⟨j, -, hj⟩ := getNodeIndx_mem hE.wf hn
  obtain ⟨prior, h1, -, h3⟩ := priorParents_spec hE hK hj
  have hp : prior = [] := List.eq_nil_iff_forall_not_mem.2 (fun p hp => by simpa using (h3 p).1 hp)
  subst hp
  have hbo : b ∈ E.otherNodes n [] := mem_otherNodes.2 ⟨hb, hbn, by simp⟩
  obtain ⟨r, hr⟩ := choice_surj hbo
  refine ⟨r, fun drop => ?_⟩
  cases hsc : E.scoreGraph n (E.initGraph n []) with
  | error e =>
    refine ⟨e, ?_⟩
    unfold estimateParents tabu hill
    split <;> simp [hj, h1, hsc]
  | ok out =>
    obtain ⟨s0, g0⟩ := out
    have hI := SInv.init (mp := a.maxParents) hE hn (prior := []) (by simp) (by simp) (by simp) hsc
    have hmove : ∀ r', ∃ e, E.tryMove n a.maxParents g0 s0 b r' = .error e := by
      intro r'
      have hpr : ∃ rem, propose n a.maxParents g0 b r' = .ok (g0.addEdges [(b, n)], true, rem) := by
        unfold propose
        rw [hI.graph.hasEdge]
        simp only [List.not_mem_nil, decide_false, Bool.false_eq_true, if_false]
        cases hmp : a.maxParents with
        | none => exact ⟨_, rfl⟩
        | some k =>
          obtain ⟨ps, k1, k2⟩ := hI.graph.parents hI.nodup hI.key
          have : ps = [] := k2.eq_nil
          subst this
          have := ha.maxParents k hmp
          simp only [k1, Except.bind_ok']
          rw [if_neg (by simp; omega)]
          exact ⟨_, rfl⟩
      obtain ⟨rem, hpr⟩ := hpr
      obtain ⟨e, he⟩ := hbad _ (hI.graph.add hn hb (u' := [b]) (by simp))
      exact ⟨e, by unfold tryMove; simp [hpr, he]⟩
    obtain ⟨e, he⟩ := hmove (drop 0)
    refine ⟨e, ?_⟩
    obtain ⟨k, hk⟩ : ∃ k, a.iterations = k + 1 := ⟨a.iterations - 1, by omega⟩
    unfold estimateParents
    split
    · unfold tabu
      simp only [hj, h1, hsc, Except.bind_ok', hk]
      rw [tabuLoop]
      have : tabuPick (E.otherNodes n []) [] [] r = .ok (b, [], []) := by
        unfold tabuPick
        simp only [List.not_mem_nil, not_false_eq_true, decide_true, List.filter_true]
        rw [if_pos (List.length_pos_of_mem hbo), hr]
        rfl
      simp [this, he]
    · unfold hill
      simp only [hj, h1, hsc, Except.bind_ok', hk]
      rw [hillLoop]
      simp [hr, he]

/-- The score of a child with one parent of more states raises on the data of C104. -/
theorem famScore_raises {s : Structure} (hw : WFStructure s) (he : s.edges = []) (ho : OwnColumns s) (hpos : PosCards s) {A B : Label}
    (hA : A ∈ s.labels) (hB : B ∈ s.labels) (hAB : A ≠ B) {i j c p : Nat} (hi : s.getNodeIndx A = .ok i) (hj : s.getNodeIndx B = .ok j)
    (hc : s.getStatesNumber A = .ok c) (hp : s.getStatesNumber B = .ok p) (hcp : c < p) (tau alpha : ℝ) (R : List (List Bool))
    {g : NetworkGraph} (hg : SGraph s A [B] g) :
    ∃ e, (sbEnv s (twoTop s.total i j ((c - 1 : Nat) : ℤ) ((p - 1 : Nat) : ℤ)) tau alpha R).scoreGraph A g = .error e := by
  obtain ⟨g', h1, h2, -⟩ := hg.fastInit hA he
  refine ⟨.valueError, ?_⟩
  have hf : s.labels.filter (fun l => decide (l ∈ parentsIn g'.edges A)) = [B] := by
    rw [h2.parentsIn_eq]
    have h1 : s.labels.filter (fun l => decide (l ∈ [B].toFinset)) = s.labels.filter (fun l => decide (l = B)) := by
      apply List.filter_congr; intro l _; simp
    rw [h1, List.filter_eq, List.count_eq_one_of_mem hw.nodup hB]
    rfl
  have hsc := famScoreOn_eq hg.reach hA h1 (twoTop s.total i j ((c - 1 : Nat) : ℤ) ((p - 1 : Nat) : ℤ)) tau alpha
  rw [hf, estFrom_raises hw ho hpos hA hB hAB hi hj hc hp hcp] at hsc
  unfold scoreGraph
  simp only [h1, Except.bind_ok']
  have : (sbEnv s (twoTop s.total i j ((c - 1 : Nat) : ℤ) ((p - 1 : Nat) : ℤ)) tau alpha R).score A g' = .error .valueError := hsc
  rw [this]; rfl

/-- The score of a variable with one state, without parents, raises on all valid data. -/
theorem famScore_one_state {s : Structure} (hw : WFStructure s) (he : s.edges = []) {t : Trajectory} (ht : DataOK s t) (hd : ∀ d ∈ t.times, 0 ≤ d)
    {n : Label} (hn : n ∈ s.labels) (hc : s.getStatesNumber n = .ok 1) {tau : ℝ} (hτ : 0 < tau) (alpha : ℝ) (R : List (List Bool))
    {g : NetworkGraph} (hg : SGraph s n [] g) : ∃ e, (sbEnv s t tau alpha R).scoreGraph n g = .error e := by
  obtain ⟨g', h1, h2, -⟩ := hg.fastInit hn he
  have hpar : parentsOf g n = [] := by
    rw [parentsOf_eq hg.reach, he]
    simp [hg.mem]
  obtain ⟨sofc, q, k1, k2⟩ := estimate_cims_observed hg.reach ht hn hc (by omega) (ps := []) (by rw [hpar]; rfl) ⟨by simp, by simp⟩
  rw [estimate_split, h1, Except.bind_ok'] at k1
  refine ⟨.zeroDivisionError, ?_⟩
  unfold scoreGraph
  simp only [h1, Except.bind_ok']
  have : (sbEnv s t tau alpha R).score n g' = .error .zeroDivisionError := by
    show famScoreOn t tau alpha n g' = _
    unfold famScoreOn
    rw [k1, Except.bind_ok', k2]
    refine (famscore_raises_iff hτ alpha 1 _ ?_).2.1.2 ⟨?_, rfl⟩
    · intro r hr x hx
      obtain ⟨u, hu, rfl⟩ := List.mem_map.1 hr
      show 0 ≤ residence s t n (parentsOf g n) x u
      unfold residence
      refine List.sum_nonneg (fun y hy => ?_)
      obtain ⟨z, hz, rfl⟩ := List.mem_map.1 hy
      exact hd _ (List.of_mem_zip (List.mem_of_mem_filter hz)).1
    · simp [buildPCombs]
  rw [this]; rfl

/-! ## C105 -/

theorem exists_label {s : Structure} (hw : WFStructure s) {v : Nat} (hv : v ∈ s.vals) : ∃ l ∈ s.labels, s.getStatesNumber l = .ok v := by
  obtain ⟨k, hk⟩ := List.mem_iff_getElem?.1 hv
  have hkl : k < s.labels.length := by
    have := (List.getElem?_eq_some_iff.1 hk).1
    have := hw.valLen
    omega
  refine ⟨s.labels[k], List.getElem_mem hkl, ?_⟩
  unfold Structure.getStatesNumber
  rw [pyIndex_of_mem (List.getElem_mem hkl), Except.bind_ok', hw.nodup.idxOf_getElem k hkl, pyGet_ok]
  exact hk

/-- **C105** For at least two variables with at least one state each, without known edges, with positive hyperparameters, sane arguments and at
least one iteration: score-based estimation returns on every valid data set and for all random draws, if and only if all variables have
equally many states, and at least two. -/
theorem score_based_returns_iff {s : Structure} (hw : WFStructure s) (hidx : s.indexes = List.range s.labels.length) (ho : OwnColumns s)
    (hpos : PosCards s) (h2 : 2 ≤ s.labels.length) {tau alpha : ℝ} (hτ : 0 < tau) (hα : 0 < alpha) {R : List (List Bool)}
    (hR : buildRemovable s s.labels.length [] = .ok R) {a : SBArgs} (ha : SaneArgs a) (hi : 1 ≤ a.iterations) (complete : DiGraph) :
    (∀ t, DataOK s t → (∀ d ∈ t.times, 0 ≤ d) → ∀ pick drop,
        ∃ out e', estimateStructure (famScoreOn t tau alpha) R ⟨s, complete⟩ a none pick drop = (.ok out, e')) ↔
      ∃ c, 2 ≤ c ∧ ∀ v ∈ s.vals, v = c := by
  have hw' : WFStructure s.cleanEdges := ⟨hw.nodup, hw.idxLen, hw.valLen⟩
  have ho' : OwnColumns s.cleanEdges := ⟨ho.nodup, ho.lt⟩
  have hdata : ∀ t, DataOK s t → DataOK s.cleanEdges t := fun t h => ⟨h.origCols, h.len, h.width, h.idx_lt, h.cur, h.nxt⟩
  have hready : ∀ t, SearchReady (sbEnv s.cleanEdges t tau alpha R) := fun t => ⟨hw', rfl⟩
  have hknown : ∀ t, KnownEdges (sbEnv s.cleanEdges t tau alpha R) [] := fun t => ⟨hidx, hR, by simp⟩
  constructor
  · intro H
    have hnode : ∀ t, DataOK s t → (∀ d ∈ t.times, 0 ≤ d) → ∀ (pick drop : Label → Nat → Nat), ∀ n ∈ s.labels,
        ∃ r, estimateParents (sbEnv s.cleanEdges t tau alpha R) a (pick n) (drop n) n = .ok r := by
      intro t ht hd pick drop n hn
      obtain ⟨⟨es, rep⟩, e', h⟩ := H t ht hd pick drop
      exact (estimate_is_union (e := ⟨s, complete⟩) (order := none) (by intro o h; cases h) h).1 n hn
    obtain ⟨v0, hv0⟩ : ∃ v, v ∈ s.vals := by
      have := hw.valLen
      exact List.exists_mem_of_length_pos (by omega)
    -- all variables have equally many states
    have hall : ∀ v ∈ s.vals, ∀ w ∈ s.vals, ¬ v < w := by
      intro c hc p hp hcp
      obtain ⟨A, hA, hAc⟩ := exists_label hw hc
      obtain ⟨B, hB, hBp⟩ := exists_label hw hp
      have hAB : A ≠ B := by rintro rfl; rw [hAc] at hBp; cases hBp; omega
      obtain ⟨i, hi1, hii⟩ := getNodeIndx_mem hw hA
      obtain ⟨j, hj1, hj⟩ := getNodeIndx_mem hw hB
      obtain ⟨r, hr⟩ := search_raises_parent (hready (twoTop s.total i j ((c - 1 : Nat) : ℤ) ((p - 1 : Nat) : ℤ))) (hknown _) hA hB
        (Ne.symm hAB) (fun g hg => famScore_raises hw' rfl ho' hpos hA hB hAB hii hj hAc hBp hcp tau alpha R hg) ha hi
      obtain ⟨e, he⟩ := hr (fun _ => 0)
      obtain ⟨x, hx⟩ := hnode _ (twoTop_ok hw ho hpos hA hB hAB hii hj hAc hBp) (by simp [twoTop]) (fun _ _ => r) (fun _ _ => 0) A hA
      rw [he] at hx
      cases hx
    have heq : ∀ v ∈ s.vals, v = v0 := fun v hv => by
      have h1 := hall v hv v0 hv0
      have h2 := hall v0 hv0 v hv
      omega
    refine ⟨v0, ?_, heq⟩
    by_contra hlt
    have hp0 := hpos v0 hv0
    have h1 : v0 = 1 := by omega
    subst h1
    obtain ⟨A, hA, hAc⟩ := exists_label hw hv0
    obtain ⟨B, hB, hAB⟩ : ∃ B ∈ s.labels, A ≠ B := by
      by_contra hcon
      push Not at hcon
      have : s.labels ⊆ [A] := fun x hx => by rw [hcon x hx]; simp
      have := (hw.nodup.subperm this).length_le
      simp at this; omega
    obtain ⟨i, hi1, hii⟩ := getNodeIndx_mem hw hA
    obtain ⟨j, hj1, hj⟩ := getNodeIndx_mem hw hB
    obtain ⟨w, hw1, hBp⟩ := getStatesNumber_mem hw hB
    have hok := twoTop_ok hw ho hpos hA hB hAB hii hj hAc hBp
    obtain ⟨e, he⟩ := search_raises_start (hready _) (hknown _) hA
      (fun g hg => famScore_one_state hw' rfl (hdata _ hok) (by simp [twoTop]) hA hAc hτ alpha R hg) a (fun _ => 0) (fun _ => 0)
    obtain ⟨x, hx⟩ := hnode _ hok (by simp [twoTop]) (fun _ _ => 0) (fun _ _ => 0) A hA
    rw [he] at hx
    cases hx
  · rintro ⟨c, hc, hcu⟩ t ht hd pick drop
    obtain ⟨es, rep, e', h, -⟩ := score_based_returns_partial (s := s) ⟨hw', hdata t ht, hcu, hd⟩ hc hτ hα (hknown t) ha
      (fun n hn => by
        obtain ⟨B, hB, hAB⟩ : ∃ B ∈ s.labels, n ≠ B := by
          by_contra hcon
          push Not at hcon
          have : s.labels ⊆ [n] := fun x hx => by rw [hcon x hx]; simp
          have := (hw.nodup.subperm this).length_le
          simp at this; omega
        refine ⟨B, ?_⟩
        unfold candidates
        rw [Finset.mem_sdiff, Finset.mem_erase, List.mem_toFinset]
        exact ⟨⟨Ne.symm hAB, hB⟩, by simp [parentsIn]⟩) complete (order := none) (by intro o h; cases h) pick drop
    exact ⟨_, _, h⟩

/-- The hypotheses are met with the default arguments by a binary and a three-valued variable, where the condition fails, and by three binary
ones, where it holds. -/
example : WFStructure Demo.structMixed2 ∧ Demo.structMixed2.indexes = List.range 2 ∧ OwnColumns Demo.structMixed2 ∧ PosCards Demo.structMixed2 ∧
    2 ≤ Demo.structMixed2.labels.length ∧ buildRemovable Demo.structMixed2 Demo.structMixed2.labels.length [] = .ok [[true, true], [true, true]] ∧
    SaneArgs defaultArgs ∧ 1 ≤ defaultArgs.iterations ∧ ¬ ∃ c, 2 ≤ c ∧ ∀ v ∈ Demo.structMixed2.vals, v = c :=
  ⟨⟨by decide, rfl, rfl⟩, rfl, ⟨by decide, by decide⟩, by unfold PosCards; decide, by decide, rfl,
    ⟨by simp [defaultArgs], by simp [defaultArgs], by simp [defaultArgs]⟩, by decide, by
      rintro ⟨c, -, h⟩
      have h1 := h 2 (by decide)
      have h2 := h 3 (by decide)
      omega⟩
example : WFStructure Demo.struct3 ∧ Demo.struct3.indexes = List.range 3 ∧ OwnColumns Demo.struct3 ∧ PosCards Demo.struct3 ∧
    2 ≤ Demo.struct3.labels.length ∧ ∃ c, 2 ≤ c ∧ ∀ v ∈ Demo.struct3.vals, v = c :=
  ⟨Demo.struct3_wf, rfl, ⟨by decide, by decide⟩, by unfold PosCards; decide, by decide, 2, le_rfl, by decide⟩

end PyCTBN
