import Verif.Lemmas.RenameCtpc

/-!
# The score-based search commutes with renaming variables
-/

namespace PyCTBN
open Spec SearchEnv

section
variable {ρ : Label → Label} (hρ : Function.Injective ρ)
include hρ

omit hρ in
theorem choice_ren (l : List Label) (r : Nat) : choice (l.map ρ) r = ρ <$> choice l r := by
  unfold choice
  by_cases h : l = []
  · subst h; rfl
  · rw [if_neg h, if_neg (by simpa using h), List.length_map, pyGet_ren]

theorem propose_ren (n : Label) (k : Option ℤ) (g : NetworkGraph) (p : Label) (r : Nat) :
    propose (ρ n) k (renameGraph ρ g) (ρ p) r = (fun x : NetworkGraph × Bool × Option Label => (renameGraph ρ x.1, x.2.1, x.2.2.map ρ)) <$> propose n k g p r := by
  unfold propose
  rw [ren_hasEdge hρ]
  split_ifs
  · rw [ren_removeEdge1 hρ]; rfl
  · cases k with
    | none =>
      show Except.ok _ = Except.ok _
      rw [ren_addEdge1 hρ]; rfl
    | some k =>
      dsimp only
      rw [ren_getParentsById hρ]
      refine Py.bind_map (fun ps => ?_)
      simp only [List.length_map]
      split_ifs
      · rw [choice_ren]
        refine Py.bind_map (fun q => ?_)
        show Except.ok _ = Except.ok _
        rw [ren_removeEdge1 hρ, ren_addEdge1 hρ]; rfl
      · show Except.ok _ = Except.ok _
        rw [ren_addEdge1 hρ]; rfl

theorem undo_ren (n : Label) (g : NetworkGraph) (p : Label) (added : Bool) (removed : Option Label) :
    undo (ρ n) (renameGraph ρ g) (ρ p) added (removed.map ρ) = renameGraph ρ (undo n g p added removed) := by
  unfold undo
  cases added with
  | true =>
    simp only [if_true]
    rw [ren_removeEdge1 hρ]
    cases removed with
    | none => rfl
    | some q => exact ren_addEdge1 hρ _ _ _
  | false => exact ren_addEdge1 hρ _ _ _

theorem setRemove_ren (s : List Label) (x : Label) : setRemove (s.map ρ) (ρ x) = List.map ρ <$> setRemove s x := by
  unfold setRemove
  by_cases h : x ∈ s
  · rw [if_pos ((mem_ren hρ).2 h), if_pos h, List.filter_map]
    congr 2
    exact List.filter_congr (fun y _ => decide_eq_decide.2 (not_congr hρ.eq_iff))
  · rw [if_neg (fun hh => h ((mem_ren hρ).1 hh)), if_neg h]; rfl

/-- A candidate and two lists of candidates, renamed. -/
abbrev renPop (ρ : Label → Label) (x : Label × List Label × List Label) : Label × List Label × List Label := (ρ x.1, x.2.1.map ρ, x.2.2.map ρ)

theorem tabuPop_ren (q t : List Label) : tabuPop (q.map ρ) (t.map ρ) = renPop ρ <$> tabuPop q t := by
  unfold tabuPop
  have : queueGet (q.map ρ) = (fun x : Label × List Label => (ρ x.1, x.2.map ρ)) <$> queueGet q := by cases q <;> rfl
  rw [this]
  refine Py.bind_map (fun x => ?_)
  dsimp only
  rw [setRemove_ren hρ]
  exact Py.bind_map (fun t => rfl)

theorem tabuPick_ren (others q t : List Label) (r : Nat) : tabuPick (others.map ρ) (q.map ρ) (t.map ρ) r = renPop ρ <$> tabuPick others q t r := by
  unfold tabuPick
  have : (others.map ρ).filter (fun l => decide (l ∉ t.map ρ)) = (others.filter (fun l => decide (l ∉ t))).map ρ := by
    rw [List.filter_map]
    congr 1
    exact List.filter_congr (fun y _ => decide_eq_decide.2 (not_congr (mem_ren hρ)))
  rw [this]
  dsimp only
  rw [List.length_map]
  split_ifs
  · rw [choice_ren]
    exact Py.bind_map (fun p => rfl)
  · exact tabuPop_ren hρ q t

theorem tabuRoom_ren (len : ℤ) (q t : List Label) :
    tabuRoom len (q.map ρ) (t.map ρ) = (fun x : List Label × List Label => (x.1.map ρ, x.2.map ρ)) <$> tabuRoom len q t := by
  unfold tabuRoom
  rw [List.length_map]
  split_ifs
  · rw [tabuPop_ren hρ]
    exact Py.bind_map (fun x => rfl)
  · rfl

theorem tabuUpdate_ren (len dur : ℤ) (q t : List Label) (p : Label) (c : Nat) :
    tabuUpdate len dur (q.map ρ) (t.map ρ) (ρ p) c
      = (fun x : List Label × List Label × Nat => (x.1.map ρ, x.2.1.map ρ, x.2.2)) <$> tabuUpdate len dur q t p c := by
  unfold tabuUpdate
  rw [tabuRoom_ren hρ]
  refine Py.bind_map (fun x => ?_)
  obtain ⟨q, t⟩ := x
  dsimp only
  have hq : q.map ρ ++ [ρ p] = (q ++ [p]).map ρ := by simp
  have ht : (if ρ p ∈ t.map ρ then t.map ρ else t.map ρ ++ [ρ p]) = (if p ∈ t then t else t ++ [p]).map ρ := by
    by_cases h : p ∈ t
    · rw [if_pos ((mem_ren hρ).2 h), if_pos h]
    · rw [if_neg (fun hh => h ((mem_ren hρ).1 hh)), if_neg h]; simp
  rw [hq, ht]
  generalize (if p ∈ t then t else t ++ [p]) = t2
  generalize q ++ [p] = q2
  simp only [List.length_map]
  split_ifs
  · rfl
  · rw [tabuPop_ren hρ]
    exact Py.bind_map (fun x => rfl)
  · rfl
  · rfl

variable {S : Type} [LinearOrder S] {E E' : SearchEnv S}
  (hs : E'.struct = renameStruct ρ E.struct) (hr : E'.removable = E.removable)
  (hsc : ∀ n g, E'.score (ρ n) (renameGraph ρ g) = E.score n g)

include hsc in
theorem scoreGraph_ren (n : Label) (g : NetworkGraph) : E'.scoreGraph (ρ n) (renameGraph ρ g) = (fun x : S × NetworkGraph => (x.1, renameGraph ρ x.2)) <$> E.scoreGraph n g := by
  unfold scoreGraph
  rw [ren_fastInit hρ]
  refine Py.bind_map (fun g => ?_)
  rw [hsc]
  exact Py.bind_map' (fun s => rfl)

include hsc in
theorem tryMove_ren (n : Label) (k : Option ℤ) (g : NetworkGraph) (best : S) (p : Label) (r : Nat) :
    E'.tryMove (ρ n) k (renameGraph ρ g) best (ρ p) r
      = (fun x : NetworkGraph × Bool × S => (renameGraph ρ x.1, x.2.1, x.2.2)) <$> E.tryMove n k g best p r := by
  unfold tryMove
  rw [propose_ren hρ]
  refine Py.bind_map (fun x => ?_)
  obtain ⟨g, a, rm⟩ := x
  dsimp only
  rw [scoreGraph_ren hρ hsc]
  refine Py.bind_map (fun x => ?_)
  obtain ⟨s, g⟩ := x
  dsimp only
  split_ifs
  · rfl
  · rw [undo_ren hρ]; rfl

include hsc in
theorem hillLoop_ren (n : Label) (others : List Label) (mp pa : Option ℤ) (pick drop : Nat → Nat) (k : Nat) :
    ∀ i g best count log, E'.hillLoop (ρ n) (others.map ρ) mp pa pick drop k i (renameGraph ρ g) best count log
      = (fun x : NetworkGraph × List S => (renameGraph ρ x.1, x.2)) <$> E.hillLoop n others mp pa pick drop k i g best count log := by
  induction k with
  | zero => intro i g best count log; rfl
  | succ k ih =>
    intro i g best count log
    unfold hillLoop
    rw [choice_ren]
    refine Py.bind_map (fun p => ?_)
    rw [tryMove_ren hρ hsc]
    refine Py.bind_map (fun x => ?_)
    obtain ⟨g, im, s⟩ := x
    dsimp only
    split_ifs
    · rfl
    · exact ih _ _ _ _ _
    · rfl
    · exact ih _ _ _ _ _

include hs hr in
omit hρ [LinearOrder S] in
theorem priorParents_ren (j : Nat) : E'.priorParents j = List.map ρ <$> E.priorParents j := by
  unfold priorParents
  rw [hr, hs]
  suffices h : ∀ (l : List Nat) (acc : List Label), l.foldlM (fun acc i => do
      if ← getFlag E.removable i j then return acc
      else do
        let p ← (renameStruct ρ E.struct).getNodeId i
        return acc ++ [p]) (acc.map ρ) = List.map ρ <$> (l.foldlM (fun acc i => do
      if ← getFlag E.removable i j then return acc
      else do
        let p ← E.struct.getNodeId i
        return acc ++ [p]) acc : Py (List Label)) from h _ []
  intro l
  induction l with
  | nil => intro acc; rfl
  | cons i l ih =>
    intro acc
    rw [List.foldlM_cons, List.foldlM_cons]
    refine Eq.trans (congrArg (· >>= _) (?_ : _ = List.map ρ <$> _)) (Py.bind_map (fun x => ih x))
    refine Py.bind_map' (fun b => ?_)
    cases b with
    | true => rfl
    | false =>
      simp only [Bool.false_eq_true, if_false]
      rw [ren_getNodeId]
      refine Py.bind_map (fun p => ?_)
      show pure _ = pure _
      simp

include hs in
omit [LinearOrder S] in
theorem initGraph_ren (n : Label) (prior : List Label) : E'.initGraph (ρ n) (prior.map ρ) = renameGraph ρ (E.initGraph n prior) := by
  unfold initGraph
  rw [hs, ren_new, foldl_addEdges_ren hρ]

include hs in
omit [LinearOrder S] in
theorem otherNodes_ren (n : Label) (prior : List Label) : E'.otherNodes (ρ n) (prior.map ρ) = (E.otherNodes n prior).map ρ := by
  unfold otherNodes
  rw [hs]
  show (E.struct.labels.map ρ).filter _ = _
  rw [List.filter_map]
  congr 1
  exact List.filter_congr (fun y _ => decide_eq_decide.2 (and_congr (not_congr hρ.eq_iff) (not_congr (mem_ren hρ))))

include hs in
omit [LinearOrder S] in
theorem envIndx_ren (n : Label) : E'.struct.getNodeIndx (ρ n) = E.struct.getNodeIndx n := by
  rw [hs]; exact ren_getNodeIndx hρ _ _

include hs hr hsc in
theorem hill_ren (n : Label) (mp : Option ℤ) (it : Nat) (pa : Option ℤ) (pick drop : Nat → Nat) :
    E'.hill (ρ n) mp it pa pick drop = (fun x : List Edge × List S => (x.1.map (renameEdge ρ), x.2)) <$> E.hill n mp it pa pick drop := by
  unfold hill
  rw [envIndx_ren hρ hs]
  refine Py.bind_map' (fun j => ?_)
  rw [priorParents_ren hs hr]
  refine Py.bind_map (fun prior => ?_)
  rw [initGraph_ren hρ hs, scoreGraph_ren hρ hsc]
  refine Py.bind_map (fun x => ?_)
  obtain ⟨s, g⟩ := x
  dsimp only
  rw [otherNodes_ren hρ hs, hillLoop_ren hρ hsc]
  refine Py.bind_map (fun x => ?_)
  dsimp only
  rw [ren_edges hρ]; rfl

/-- One entry of the log, renamed. -/
def renStep (ρ : Label → Label) (x : TabuStep S) : TabuStep S := ⟨ρ x.cand, x.queue.map ρ, x.score⟩

include hsc in
theorem tabuLoop_ren (n : Label) (others : List Label) (mp pa : Option ℤ) (len dur : ℤ) (pick drop : Nat → Nat) (k : Nat) :
    ∀ i g best count q t tc log, E'.tabuLoop (ρ n) (others.map ρ) mp pa len dur pick drop k i (renameGraph ρ g) best count (q.map ρ) (t.map ρ) tc (log.map (renStep ρ))
      = (fun x : NetworkGraph × List (TabuStep S) => (renameGraph ρ x.1, x.2.map (renStep ρ))) <$> E.tabuLoop n others mp pa len dur pick drop k i g best count q t tc log := by
  induction k with
  | zero => intro i g best count q t tc log; rfl
  | succ k ih =>
    intro i g best count q t tc log
    unfold tabuLoop
    rw [tabuPick_ren hρ]
    refine Py.bind_map (fun x => ?_)
    obtain ⟨p, q1, t1⟩ := x
    dsimp only
    rw [tryMove_ren hρ hsc]
    refine Py.bind_map (fun x => ?_)
    obtain ⟨g, im, s⟩ := x
    dsimp only
    rw [tabuUpdate_ren hρ]
    refine Py.bind_map (fun x => ?_)
    obtain ⟨q2, t2, tc'⟩ := x
    dsimp only
    have hl : log.map (renStep ρ) ++ [(⟨ρ p, q.map ρ, s⟩ : TabuStep S)] = (log ++ [(⟨p, q, s⟩ : TabuStep S)]).map (renStep ρ) := by simp [renStep]
    rw [hl]
    split_ifs
    · rfl
    · exact ih _ _ _ _ _ _ _ _
    · rfl
    · exact ih _ _ _ _ _ _ _ _

include hs hr hsc in
theorem tabu_ren (n : Label) (mp : Option ℤ) (it : Nat) (pa tl td : Option ℤ) (pick drop : Nat → Nat) :
    E'.tabu (ρ n) mp it pa tl td pick drop
      = (fun x : List Edge × S × List (TabuStep S) => (x.1.map (renameEdge ρ), x.2.1, x.2.2.map (renStep ρ))) <$> E.tabu n mp it pa tl td pick drop := by
  unfold tabu
  rw [envIndx_ren hρ hs]
  refine Py.bind_map' (fun j => ?_)
  rw [priorParents_ren hs hr]
  refine Py.bind_map (fun prior => ?_)
  rw [initGraph_ren hρ hs, scoreGraph_ren hρ hsc, otherNodes_ren hρ hs]
  dsimp only
  refine Py.bind_map (fun x => ?_)
  obtain ⟨s, g⟩ := x
  dsimp only
  rw [List.length_map]
  refine Eq.trans (congrArg (· >>= _) (tabuLoop_ren hρ hsc n (E.otherNodes n prior) mp pa _ _ pick drop it 0 g s 0 [] [] 0 [])) ?_
  refine Py.bind_map (fun x => ?_)
  dsimp only
  rw [ren_edges hρ]; rfl

include hs hr hsc in
theorem estimateParents_ren (a : SBArgs) (pick drop : Nat → Nat) (n : Label) :
    estimateParents E' a pick drop (ρ n) = List.map (renameEdge ρ) <$> estimateParents E a pick drop n := by
  unfold estimateParents
  split_ifs
  · rw [tabu_ren hρ hs hr hsc]
    exact Py.bind_map (fun x => rfl)
  · rw [hill_ren hρ hs hr hsc]
    exact Py.bind_map (fun x => rfl)

theorem famScoreOn_ren (t : Trajectory) (tau alpha : ℝ) (n : Label) (g : NetworkGraph) :
    famScoreOn t tau alpha (ρ n) (renameGraph ρ g) = famScoreOn t tau alpha n g := by
  unfold famScoreOn
  rw [ren_computeOn hρ]
  cases computeOn t g n <;> rfl

theorem sequential_ren {run run' : Label → Py (List Edge)} (h : ∀ n, run' (ρ n) = List.map (renameEdge ρ) <$> run n) (nodes : List Label) :
    perNodeSequential run' (nodes.map ρ) = List.map (List.map (renameEdge ρ)) <$> perNodeSequential run nodes := mapM_map_py h nodes

theorem parallel_ren {run run' : Label → Py (List Edge)} (h : ∀ n, run' (ρ n) = List.map (renameEdge ρ) <$> run n) (nodes order : List Label) :
    perNodeParallel run' (nodes.map ρ) (order.map ρ) = List.map (List.map (renameEdge ρ)) <$> perNodeParallel run nodes order := by
  unfold perNodeParallel
  have hd : (order.map ρ).map (fun n => (n, run' n)) = (order.map (fun n => (n, run n))).map (fun p => (ρ p.1, (List.map (renameEdge ρ)) <$> p.2)) := by
    rw [List.map_map, List.map_map]
    refine List.map_congr_left (fun n _ => ?_)
    simp only [Function.comp, h]
  rw [hd]
  dsimp only
  have ha : ((order.map (fun n => (n, run n))).map (fun p => (ρ p.1, (List.map (renameEdge ρ)) <$> p.2))).any (fun r => decide (r.2 = .error .blocked))
      = (order.map (fun n => (n, run n))).any (fun r => decide (r.2 = .error .blocked)) := by
    rw [List.any_map]
    congr 1
    funext p
    obtain ⟨l, x⟩ := p
    cases x with
    | error e => rfl
    | ok v => rfl
  rw [ha]
  split_ifs
  · rfl
  · refine mapM_map_py (fun n => ?_) nodes
    rw [lookup_ren hρ]
    cases (order.map (fun n => (n, run n))).lookup n <;> rfl

/-! ## The estimator -/

theorem permutations2_ren (l : List Label) : permutations2 (l.map ρ) = (permutations2 l).map (renameEdge ρ) := by
  unfold permutations2
  rw [List.zipIdx_map, List.flatMap_map, List.map_flatMap]
  refine List.flatMap_congr (fun a _ => ?_)
  rw [List.filter_map, List.map_map, List.map_map]
  rfl

theorem touchAll_ren (l : List Label) : ∀ g : DiGraph, (l.map ρ).foldl DiGraph.touch (renameDi ρ g) = renameDi ρ (l.foldl DiGraph.touch g) := by
  induction l with
  | nil => intro g; rfl
  | cons x l ih => intro g; rw [List.map_cons, List.foldl_cons, List.foldl_cons, ren_touch hρ, ih]

theorem buildComplete_ren (l : List Label) : buildCompleteGraph (l.map ρ) = renameDi ρ (buildCompleteGraph l) := by
  unfold buildCompleteGraph
  rw [permutations2_ren hρ, ← ren_addEdgesFrom hρ, ← touchAll_ren hρ]
  rfl

theorem estNew_ren (s : Structure) : Estimator.new (renameStruct ρ s) = renameEst ρ (Estimator.new s) := by
  unfold Estimator.new renameEst
  have : (renameStruct ρ s).labels = s.labels.map ρ := rfl
  rw [this, buildComplete_ren hρ]

theorem update_ren (e : Estimator) (es : List Edge) : (renameEst ρ e).update (es.map (renameEdge ρ)) = renameEst ρ (e.update es) := by
  unfold Estimator.update renameEst
  dsimp only
  rw [← ren_addEdgesFrom hρ]
  rfl

theorem adjacency_ren (e : Estimator) (nodes : List Label) : (renameEst ρ e).adjacencyMatrix (nodes.map ρ) = e.adjacencyMatrix nodes := by
  unfold Estimator.adjacencyMatrix
  have hnd : (nodes.map ρ).Nodup ↔ nodes.Nodup := List.nodup_map_iff hρ
  by_cases h0 : nodes = []
  · subst h0; rfl
  · rw [if_neg h0, if_neg (by simpa using h0)]
    by_cases h1 : nodes.Nodup
    · rw [if_neg (not_not.2 h1), if_neg (not_not.2 (hnd.2 h1)), List.map_map]
      congr 1
      refine List.map_congr_left (fun a _ => ?_)
      simp only [Function.comp, List.map_map]
      refine List.map_congr_left (fun b _ => ?_)
      exact decide_eq_decide.2 (mem_renE hρ (x := (a, b)))
    · rw [if_pos h1, if_pos (fun hh => h1 (hnd.1 hh))]

theorem spurious_ren (e : Estimator) : (renameEst ρ e).spuriousEdges = List.map (renameEdge ρ) <$> e.spuriousEdges := by
  unfold Estimator.spuriousEdges
  have hp : (renameEst ρ e).hasPrior = e.hasPrior := by
    unfold Estimator.hasPrior renameEst renameStruct
    simp
  rw [hp]
  by_cases hpr : ¬ e.hasPrior
  · rw [if_pos hpr, if_pos hpr]; rfl
  · rw [if_neg hpr, if_neg hpr]
    dsimp only
    have hreal : ((renameEst ρ e).struct.labels.foldl DiGraph.touch DiGraph.empty).addEdgesFrom (renameEst ρ e).struct.edges
        = renameDi ρ ((e.struct.labels.foldl DiGraph.touch DiGraph.empty).addEdgesFrom e.struct.edges) := by
      rw [← ren_addEdgesFrom hρ, ← touchAll_ren hρ]
      rfl
    rw [hreal]
    generalize (e.struct.labels.foldl DiGraph.touch DiGraph.empty).addEdgesFrom e.struct.edges = real
    have hn : ∀ g : DiGraph, ((renameDi ρ g).nodes.map Prod.fst).toFinset = (g.nodes.map Prod.fst).toFinset.image ρ := by
      intro g
      ext x
      simp [renameDi]
    have hc : (renameEst ρ e).complete = renameDi ρ e.complete := rfl
    rw [hc, hn, hn]
    by_cases h : (real.nodes.map Prod.fst).toFinset = (e.complete.nodes.map Prod.fst).toFinset
    · rw [if_neg (not_not.2 (by rw [h])), if_neg (not_not.2 h), ren_edgesView hρ, List.filter_map]
      congr 2
      exact List.filter_congr (fun x _ => decide_eq_decide.2 (not_congr (mem_renE hρ)))
    · rw [if_pos (fun hh => h (Finset.image_injective hρ hh)), if_pos h]
      rfl

theorem saved_ren (e : Estimator) : (renameEst ρ e).savedResults = (e.savedResults.1.map ρ, e.savedResults.2.map (renameEdge ρ)) := by
  unfold Estimator.savedResults
  have hc : (renameEst ρ e).complete = renameDi ρ e.complete := rfl
  rw [hc, ren_edgesView hρ]
  simp [renameDi]

theorem report_ren (a b : Finset Edge) : report (a.image (renameEdge ρ)) (b.image (renameEdge ρ)) = report a b := by
  unfold report
  have hi := renameEdge_inj hρ
  rw [← Finset.image_sdiff _ _ hi, ← Finset.image_sdiff _ _ hi, Finset.card_image_of_injective _ hi, Finset.card_image_of_injective _ hi,
    Finset.card_image_of_injective _ hi]

omit hρ in
theorem toFinset_ren (l : List Edge) : (l.map (renameEdge ρ)).toFinset = l.toFinset.image (renameEdge ρ) := by
  ext x; simp

theorem finish_ren (e : Estimator) (ess : List (List Edge)) :
    ((.ok (((ess.map (List.map (renameEdge ρ))).flatten).toFinset,
      report (renameEst ρ e).struct.edges.toFinset ((ess.map (List.map (renameEdge ρ))).flatten).toFinset),
      (renameEst ρ e).update ((ess.map (List.map (renameEdge ρ))).flatten).dedup) : Py (Finset Edge × Option (ℚ × ℚ)) × Estimator)
    = renOut (fun r : Finset Edge × Option (ℚ × ℚ) => (r.1.image (renameEdge ρ), r.2)) (renameEst ρ)
      (.ok (ess.flatten.toFinset, report e.struct.edges.toFinset ess.flatten.toFinset), e.update ess.flatten.dedup) := by
  rw [← List.map_flatten, toFinset_ren, List.dedup_map_of_injective (renameEdge_inj hρ), update_ren hρ]
  have : (renameEst ρ e).struct.edges.toFinset = e.struct.edges.toFinset.image (renameEdge ρ) := toFinset_ren _
  rw [this, report_ren hρ]
  rfl

theorem estimateStructure_ren {score score' : Label → NetworkGraph → Py S} (hsc : ∀ n g, score' (ρ n) (renameGraph ρ g) = score n g)
    (removable : List (List Bool)) (e : Estimator) (a : SBArgs) (order : Option (List Label)) {pick drop pick' drop' : Label → Nat → Nat}
    (hpick : ∀ n, pick' (ρ n) = pick n) (hdrop : ∀ n, drop' (ρ n) = drop n) :
    estimateStructure score' removable (renameEst ρ e) a (order.map (List.map ρ)) pick' drop'
      = renOut (fun r : Finset Edge × Option (ℚ × ℚ) => (r.1.image (renameEdge ρ), r.2)) (renameEst ρ) (estimateStructure score removable e a order pick drop) := by
  unfold estimateStructure
  dsimp only
  have hc : (renameEst ρ e).struct.cleanEdges = renameStruct ρ e.struct.cleanEdges := rfl
  rw [hc]
  have hrun : ∀ n, estimateParents (⟨renameStruct ρ e.struct.cleanEdges, removable, score'⟩ : SearchEnv S) a (pick' (ρ n)) (drop' (ρ n)) (ρ n)
      = List.map (renameEdge ρ) <$> estimateParents (⟨e.struct.cleanEdges, removable, score⟩ : SearchEnv S) a (pick n) (drop n) n := by
    intro n
    rw [hpick, hdrop]
    exact estimateParents_ren hρ (E := ⟨e.struct.cleanEdges, removable, score⟩) (E' := ⟨renameStruct ρ e.struct.cleanEdges, removable, score'⟩) rfl rfl hsc a _ _ n
  have hl : (renameStruct ρ e.struct.cleanEdges).labels = e.struct.cleanEdges.labels.map ρ := rfl
  cases order with
  | none =>
    dsimp only [Option.map]
    rw [hl, sequential_ren hρ (run' := fun n => estimateParents (⟨renameStruct ρ e.struct.cleanEdges, removable, score'⟩ : SearchEnv S) a (pick' n) (drop' n) n) hrun]
    cases perNodeSequential (fun n => estimateParents (⟨e.struct.cleanEdges, removable, score⟩ : SearchEnv S) a (pick n) (drop n) n) e.struct.cleanEdges.labels with
    | error x => rfl
    | ok ess => exact finish_ren hρ e ess
  | some o =>
    dsimp only [Option.map]
    rw [hl, parallel_ren hρ (run' := fun n => estimateParents (⟨renameStruct ρ e.struct.cleanEdges, removable, score'⟩ : SearchEnv S) a (pick' n) (drop' n) n) hrun]
    cases perNodeParallel (fun n => estimateParents (⟨e.struct.cleanEdges, removable, score⟩ : SearchEnv S) a (pick n) (drop n) n) e.struct.cleanEdges.labels o with
    | error x => rfl
    | ok ess => exact finish_ren hρ e ess

theorem ctpcEstimate_ren (E : CBEnv) (st : CBState) (e : Estimator) (order : Option (List Label)) :
    (renameEnv ρ E).ctpcEstimate (renameState ρ st) (renameEst ρ e) (order.map (List.map ρ))
      = renOut (fun r : Finset Edge => r.image (renameEdge ρ)) (renameEst ρ) (E.ctpcEstimate st e order) := by
  unfold CBEnv.ctpcEstimate
  have tail : ∀ es : List Edge, ((.ok (es.map (renameEdge ρ)).toFinset, (renameEst ρ e).update (es.map (renameEdge ρ)).dedup) : Py (Finset Edge) × Estimator)
      = renOut (fun r : Finset Edge => r.image (renameEdge ρ)) (renameEst ρ) (.ok es.toFinset, e.update es.dedup) := by
    intro es
    rw [toFinset_ren, List.dedup_map_of_injective (renameEdge_inj hρ), update_ren hρ]
    rfl
  cases order with
  | none =>
    dsimp only [Option.map]
    rw [ctpcSequential_ren hρ]
    dsimp only [renOut]
    cases (E.ctpcSequential st).1 with
    | error x => rfl
    | ok es => exact tail es
  | some o =>
    dsimp only [Option.map]
    rw [ctpcParallel_ren hρ]
    dsimp only [renOut]
    cases (E.ctpcParallel st o).1 with
    | error x => rfl
    | ok es => exact tail es

theorem buildRemovable_ren (s : Structure) (n : Nat) (known : List Edge) : buildRemovable (renameStruct ρ s) n (known.map (renameEdge ρ)) = buildRemovable s n known := by
  unfold buildRemovable
  generalize List.replicate n (List.replicate n true) = m
  induction known generalizing m with
  | nil => rfl
  | cons e l ih =>
    rw [List.map_cons, List.foldlM_cons, List.foldlM_cons]
    have h1 : (renameStruct ρ s).getNodeIndx (renameEdge ρ e).1 = s.getNodeIndx e.1 := ren_getNodeIndx hρ _ _
    have h2 : (renameStruct ρ s).getNodeIndx (renameEdge ρ e).2 = s.getNodeIndx e.2 := ren_getNodeIndx hρ _ _
    rw [h1, h2]
    congr 1
    funext m
    exact ih m

end
end PyCTBN
